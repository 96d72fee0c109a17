import Verif.Lemmas.Strip

/-!
# The homology of degree one of a complex with any cover

The classes of degree one of the whole complex, from the entries of the last page in total degree one.
-/

namespace Permaviss

open Finset

attribute [-instance] instMulZeroClassOfSemiring

section

variable {α : Type} [LinearOrder α] [Zero α] {rnd : α → α} {E : SSEnv α} {ρ : List ℕ → α}

/-- Generators of `Z / N`, as combinations of classes of column `n`; nothing is said of them when their
bars are over. -/
structure GensW (E : SSEnv α) (n deg : ℕ) (bars : List (α × α)) (x : ℕ → ℕ → ZMod E.p)
    (Z N : α → Submodule (ZMod E.p) (ℕ → ZMod E.p)) : Prop where
  wf : ∀ b ∈ bars, b.1 < b.2
  born : ∀ i b, bars[i]? = some b → E.BornBy n deg (x i) b.1
  span : ∀ t z, z ∈ Z t → ∃ c : ℕ → ZMod E.p, (∀ i, ¬ AliveBar bars i t → c i = 0) ∧
    z - barRestr E.p (E.firstBars deg n) t (∑ i ∈ range bars.length, c i • x i) ∈ N t
  indep : ∀ t (c : ℕ → ZMod E.p), (∀ i, ¬ AliveBar bars i t → c i = 0) →
    barRestr E.p (E.firstBars deg n) t (∑ i ∈ range bars.length, c i • x i) ∈ N t → ∀ i, c i = 0

theorem GensW.comb {n deg : ℕ} {bars : List (α × α)} {x : ℕ → ℕ → ZMod E.p}
    {Z N : α → Submodule (ZMod E.p) (ℕ → ZMod E.p)} (X : GensW E n deg bars x Z N) {t : α}
    {c : ℕ → ZMod E.p} (hc : ∀ i, ¬ AliveBar bars i t → c i = 0) :
    E.BornBy n deg (∑ i ∈ range bars.length, c i • x i) t := by
  refine BornBy.sum _ _ fun i _ => ?_
  by_cases h0 : c i = 0
  · rw [h0, zero_smul]; exact BornBy.zero
  have : AliveBar bars i t := by by_contra hn; exact h0 (hc i hn)
  obtain ⟨b, hb, hb1, -⟩ := this
  exact BornBy.smul _ (BornBy.mono hb1 (X.born i b hb))

/-- Generators of `Z / N` at the radii below the largest one. -/
structure GensR (E : SSEnv α) (n deg : ℕ) (bars : List (α × α)) (x : ℕ → ℕ → ZMod E.p)
    (Z N : α → Submodule (ZMod E.p) (ℕ → ZMod E.p)) : Prop where
  wf : ∀ b ∈ bars, b.1 < b.2
  born : ∀ i b, bars[i]? = some b → E.BornBy n deg (x i) b.1
  dead : ∀ i b t, bars[i]? = some b → b.2 ≤ t → t < E.maxR →
    barRestr E.p (E.firstBars deg n) t (x i) ∈ N t
  span : ∀ t z, t < E.maxR → z ∈ Z t → ∃ c : ℕ → ZMod E.p, (∀ i, ¬ AliveBar bars i t → c i = 0) ∧
    z - barRestr E.p (E.firstBars deg n) t (∑ i ∈ range bars.length, c i • x i) ∈ N t
  indep : ∀ t (c : ℕ → ZMod E.p), t < E.maxR → (∀ i, ¬ AliveBar bars i t → c i = 0) →
    barRestr E.p (E.firstBars deg n) t (∑ i ∈ range bars.length, c i • x i) ∈ N t → ∀ i, c i = 0

/-- Combinations of things which are born. -/
theorem bornBy_comb {n deg : ℕ} {bars : List (α × α)} {x : ℕ → ℕ → ZMod E.p} {t : α}
    (hb : ∀ i b, bars[i]? = some b → E.BornBy n deg (x i) b.1) {c : ℕ → ZMod E.p}
    (hc : ∀ i, c i ≠ 0 → ∃ b, bars[i]? = some b ∧ b.1 ≤ t) (m : ℕ) :
    E.BornBy n deg (∑ i ∈ range m, c i • x i) t := by
  refine BornBy.sum _ _ fun i _ => ?_
  by_cases h0 : c i = 0
  · rw [h0, zero_smul]; exact BornBy.zero
  obtain ⟨b, hb', hb1⟩ := hc i h0
  exact BornBy.smul _ (BornBy.mono hb1 (hb i b hb'))

theorem GensR.comb {n deg : ℕ} {bars : List (α × α)} {x : ℕ → ℕ → ZMod E.p}
    {Z N : α → Submodule (ZMod E.p) (ℕ → ZMod E.p)} (X : GensR E n deg bars x Z N) {t : α}
    {c : ℕ → ZMod E.p} (hc : ∀ i, ¬ AliveBar bars i t → c i = 0) :
    E.BornBy n deg (∑ i ∈ range bars.length, c i • x i) t := by
  refine bornBy_comb X.born (fun i hi => ?_) _
  have : AliveBar bars i t := by by_contra hn; exact hi (hc i hn)
  obtain ⟨b, hb, hb1, -⟩ := this
  exact ⟨b, hb, hb1⟩

/-- The Čech complex is exact at the second column. -/
def SSEnv.CechEx (E : SSEnv α) (ρ : List ℕ → α) (D D' : Mat) : Prop :=
  ∀ deg ≤ E.rows, ∀ (t : α) (c : ℕ → ℕ → ZMod E.p), (∀ l < E.spx 1, E.PresentAt ρ 1 l deg (c l) t) →
    (∀ k < E.spx 0, E.cechSum D 0 deg k c = 0) → ∃ q : ℕ → ℕ → ZMod E.p,
      (∀ m < E.spx 2, E.PresentAt ρ 2 m deg (q m) t) ∧ ∀ l < E.spx 1, c l = E.cechSum D' 1 deg l q

/-- The combinations of classes of the first column which are zero in the whole complex. -/
noncomputable def SSEnv.NI (E : SSEnv α) (ρ : List ℕ → α) (N deg : ℕ) (t : α) :
    Submodule (ZMod E.p) (ℕ → ZMod E.p) :=
  barModule E.p (E.firstBars deg 0) t ⊓ (E.BG ρ N deg t).comap (E.whole deg)

theorem whole_dead (h : SSOK rnd E ρ) {N : ℕ} {D : Mat} (C : CoverOK E ρ N D) {deg : ℕ}
    (hdeg : deg < E.rows) {t : α} (ht : t < E.maxR) {x : ℕ → ZMod E.p} (hx : E.BornBy 0 deg x t)
    (hd : barRestr E.p (E.firstBars deg 0) t x = 0) : E.whole deg x ∈ E.BG ρ N deg t := by
  have hc0 : 0 < E.columns.length := by have := C.cols; omega
  obtain ⟨w, hw⟩ := dead_fam h hc0 hdeg ht hx hd
  rw [whole_eq, glSum_congr fun k hk => (hw k hk).2]
  exact glSum_bd_mem h C hdeg fun k hk => (hw k hk).1

theorem mem_NI (h : SSOK rnd E ρ) {N : ℕ} {D : Mat} (C : CoverOK E ρ N D) {deg : ℕ}
    (hdeg : deg < E.rows) {t : α} (ht : t < E.maxR) {x : ℕ → ZMod E.p} (hx : E.BornBy 0 deg x t) :
    barRestr E.p (E.firstBars deg 0) t x ∈ E.NI ρ N deg t ↔ E.whole deg x ∈ E.BG ρ N deg t := by
  have hd : E.whole deg (x - barRestr E.p (E.firstBars deg 0) t x) ∈ E.BG ρ N deg t := by
    refine whole_dead h C hdeg ht (BornBy.sub hx (BornBy.restr _ hx)) ?_
    rw [map_sub, sub_eq_zero]
    exact (restr_restr _).symm
  rw [map_sub] at hd
  constructor
  · rintro ⟨-, h2⟩
    have := Submodule.add_mem _ hd h2
    rwa [sub_add_cancel] at this
  · intro hw
    refine ⟨⟨x, rfl⟩, ?_⟩
    have := Submodule.sub_mem _ hw hd
    rwa [sub_sub_cancel] at this

/-- The boundaries of the second page come from the next column, up to boundaries. -/
theorem bounds_fam (h : SSOK rnd E ρ) {n deg : ℕ} {D : Mat} (hD : E.nerveDiff[n]? = some D)
    (hn : n + 1 < E.columns.length) (hdeg : deg < E.rows) {M : Mat}
    (hM : firstDifferential E n deg = .ok M) {t : α} (ht : t < E.maxR) {x : ℕ → ZMod E.p}
    (hx : E.BornBy n deg x t) (hb : barRestr E.p (E.firstBars deg n) t x ∈
      imAt E.p (E.firstBars deg (n + 1)) (E.firstBars deg n) M t) :
    ∃ (κ : ℕ → ZMod E.p) (w : ℕ → ℕ → ZMod E.p), E.BornBy (n + 1) deg κ t ∧
      ∀ k < E.spx n, E.PresentAt ρ n k (deg + 1) (w k) t ∧ E.fam n deg k x =
        E.cechSum D n deg k (fun l => E.fam (n + 1) deg l κ) + E.bd n k (deg + 1) (w k) := by
  obtain ⟨y, hy, he⟩ := hb
  have hyr : barRestr E.p (E.firstBars deg (n + 1)) t y = y := by
    obtain ⟨y', rfl⟩ := hy
    exact restr_restr _
  have hyb : E.BornBy (n + 1) deg y t := BornBy.of_barModule hy
  obtain ⟨g1, w, hw⟩ := fam_first h hD hn hdeg hM hyb
  have hdead : barRestr E.p (E.firstBars deg n) t (x - M.mulVecL E.p y) = 0 := by
    rw [map_sub, ← he, sub_eq_zero]
    unfold morAt
    rw [LinearMap.comp_apply, LinearMap.comp_apply, hyr]
  obtain ⟨w', hw'⟩ := dead_fam h (by omega) hdeg ht (BornBy.sub hx g1) hdead
  refine ⟨y, fun k => w k + w' k, hyb, fun k hk => ⟨PresentAt.add (hw k hk).1 (hw' k hk).1, ?_⟩⟩
  rw [map_add, ← (hw' k hk).2, map_sub, ← (hw k hk).2]
  abel

/-- Combinations with the Čech differential of a combination of the next column are boundaries of the second
page. -/
theorem fam_bounds (h : SSOK rnd E ρ) {n deg : ℕ} {D : Mat} (hD : E.nerveDiff[n]? = some D)
    (hn : n + 1 < E.columns.length) (hdeg : deg < E.rows) {M : Mat}
    (hM : firstDifferential E n deg = .ok M) {t : α} (ht : t < E.maxR) {x κ : ℕ → ZMod E.p}
    (hx : E.BornBy n deg x t) (hκ : E.BornBy (n + 1) deg κ t) {w : ℕ → ℕ → ZMod E.p}
    (hw : ∀ k < E.spx n, E.PresentAt ρ n k (deg + 1) (w k) t ∧ E.fam n deg k x =
        E.cechSum D n deg k (fun l => E.fam (n + 1) deg l κ) + E.bd n k (deg + 1) (w k)) :
    barRestr E.p (E.firstBars deg n) t x ∈
      imAt E.p (E.firstBars deg (n + 1)) (E.firstBars deg n) M t := by
  obtain ⟨g1, w', hw'⟩ := fam_first h hD hn hdeg hM hκ
  have hdead : barRestr E.p (E.firstBars deg n) t (x - M.mulVecL E.p κ) = 0 := by
    refine fam_dead h (by omega) hdeg ht (BornBy.sub hx g1) (w := fun k => w k - w' k) fun k hk =>
      ⟨PresentAt.sub (hw k hk).1 (hw' k hk).1, ?_⟩
    rw [map_sub, map_sub, (hw k hk).2, ← (hw' k hk).2]
    abel
  refine ⟨barRestr E.p (E.firstBars deg (n + 1)) t κ, ⟨κ, rfl⟩, ?_⟩
  unfold morAt
  rw [LinearMap.comp_apply, LinearMap.comp_apply]
  rw [show barRestr E.p (E.firstBars deg (n + 1)) t (barRestr E.p (E.firstBars deg (n + 1)) t κ) =
    barRestr E.p (E.firstBars deg (n + 1)) t κ from restr_restr _]
  rw [map_sub, sub_eq_zero] at hdead
  rw [hdead]
  exact first_dead h hn hdeg hM hκ

/-- What is known of the entries of the last page in total degree one: `x` are generators on the first column
in degree one, `y` on the second one in degree zero, `v j` is the other part of the representative of `y j`,
and `c0` and `c1` the combinations which it becomes when the bar of `y j` ends. -/
structure PlaneData (E : SSEnv α) (ρ : List ℕ → α) (N : ℕ) (D M M' : Mat) (b0 b1 : List (α × α))
    (x y : ℕ → ℕ → ZMod E.p) (v : ℕ → ℕ → ℕ → ZMod E.p) (c0 c1 : ℕ → ℕ → ZMod E.p) : Prop where
  first : GensR E 0 1 b0 x (barModule E.p (E.firstBars 1 0)) (E.NI ρ N 1)
  second : GensW E 1 0 b1 y (kerAt E.p (E.firstBars 0 1) (E.firstBars 0 0) M)
    (imAt E.p (E.firstBars 0 2) (E.firstBars 0 1) M')
  lift : ∀ j b, b1[j]? = some b → ∀ k < E.spx 0, E.PresentAt ρ 0 k 1 (v j k) b.1 ∧
    E.bd 0 k 1 (v j k) + E.cechSum D 0 0 k (fun l => E.fam 1 0 l (y j)) = 0
  dies : ∀ j b, b1[j]? = some b → b.2 < E.maxR →
    E.glSum 1 (v j) - (∑ i ∈ range b0.length, c0 i j • E.whole 1 (x i) +
      ∑ i ∈ range b1.length, c1 i j • E.glSum 1 (v i)) ∈ E.BG ρ N 1 b.2

section

variable {N : ℕ} {D D' M M' : Mat} {b0 b1 : List (α × α)} {x y : ℕ → ℕ → ZMod E.p}
  {v : ℕ → ℕ → ℕ → ZMod E.p} {c0 c1 : ℕ → ℕ → ZMod E.p}

theorem PlaneData.comb (S : PlaneData E ρ N D M M' b0 b1 x y v c0 c1) {t : α}
    {a : ℕ → ZMod E.p} (ha : ∀ j, ¬ AliveBar b1 j t → a j = 0) {k : ℕ} (hk : k < E.spx 0) :
    E.PresentAt ρ 0 k 1 (∑ j ∈ range b1.length, a j • v j k) t ∧
    E.bd 0 k 1 (∑ j ∈ range b1.length, a j • v j k) +
      E.cechSum D 0 0 k (fun l => E.fam 1 0 l (∑ j ∈ range b1.length, a j • y j)) = 0 := by
  constructor
  · refine PresentAt.sum _ _ fun j hj => ?_
    by_cases h0 : a j = 0
    · rw [h0, zero_smul]; exact fun i hi => absurd rfl hi
    have : AliveBar b1 j t := by by_contra hn; exact h0 (ha j hn)
    obtain ⟨b, hb, hb1, -⟩ := this
    exact PresentAt.smul _ (PresentAt.mono hb1 (S.lift j b hb k hk).1)
  · simp only [fam_smulsum]
    rw [cechSum_smulsum a (fun j l => E.fam 1 0 l (y j)), map_sum, ← Finset.sum_add_distrib]
    refine Finset.sum_eq_zero fun j hj => ?_
    rw [map_smul, ← smul_add]
    have hj' := mem_range.1 hj
    rw [(S.lift j _ (List.getElem?_eq_getElem hj') k hk).2, smul_zero]

theorem plane_indep (h : SSOK rnd E ρ) (C : CoverOK E ρ N D) (hD' : E.nerveDiff[1]? = some D')
    (hI : E.CechEx ρ D D') (hlen : 2 < E.columns.length) (he : 1 < E.rows)
    (hM' : firstDifferential E 1 0 = .ok M') (S : PlaneData E ρ N D M M' b0 b1 x y v c0 c1) {t : α}
    (ht : t < E.maxR) {a : ℕ → ZMod E.p} (ha : ∀ i, ¬ AliveBar (b0 ++ b1) i t → a i = 0)
    (hb : ∑ i ∈ range (b0.length + b1.length), a i • E.stripGen 0 b0.length x v i ∈ E.BG ρ N 1 t) :
    ∀ i, a i = 0 := by
  have hc0 : 0 < E.columns.length := by have := C.cols; omega
  rw [sum_stripGen] at hb
  have ha0 : ∀ i, ¬ AliveBar b0 i t → (fun i => if i < b0.length then a i else 0) i = 0 := by
    intro i hi
    beta_reduce
    split
    · next hlt => exact ha i (by rwa [aliveBar_append_left hlt])
    · rfl
  have ha1 : ∀ j, ¬ AliveBar b1 j t → (fun j => a (b0.length + j)) j = 0 := by
    intro j hj
    exact ha _ (by rwa [aliveBar_append_right])
  have hX : ∑ i ∈ range b0.length, a i • x i =
      ∑ i ∈ range b0.length, (fun i => if i < b0.length then a i else 0) i • x i :=
    Finset.sum_congr rfl fun i hi => by beta_reduce; rw [if_pos (mem_range.1 hi)]
  set a0 : ℕ → ZMod E.p := fun i => if i < b0.length then a i else 0 with ha0e
  set a1 : ℕ → ZMod E.p := fun j => a (b0.length + j) with ha1e
  rw [hX] at hb
  set X := ∑ i ∈ range b0.length, a0 i • x i with hXe
  have hXb : E.BornBy 0 1 X t := S.first.comb ha0
  have hYb : E.BornBy 1 0 (∑ j ∈ range b1.length, a1 j • y j) t := S.second.comb ha1
  have h1 : ∀ j, a1 j = 0 := by
    obtain ⟨w, hw, hsum⟩ := mem_BG h C he ht hb
    rw [whole_eq, ← glSum_add'] at hsum
    have hsum' := sub_eq_zero.2 hsum
    rw [← glSum_sub'] at hsum'
    -- the family is a Čech differential
    obtain ⟨u, hu1, hu2⟩ := cech_exact h C he.le (t := t)
      (c := fun k => E.fam 0 1 k X + ∑ j ∈ range b1.length, a1 j • v j k -
        E.bd 0 k (1 + 1) (w k)) (by
        intro k hk
        exact PresentAt.sub (PresentAt.add (fam_cycle h hc0 he hXb hk).1 (S.comb ha1 hk).1)
          (present_bd h hc0 he hk (hw k hk)).1)
      (by rw [← glSum_eq]; exact hsum')
    -- the classes on the second column come from the third one
    obtain ⟨q, hq1, hq2⟩ := hI 0 (by omega) t
      (fun l => E.bd 1 l 1 (u l) - E.fam 1 0 l (∑ j ∈ range b1.length, a1 j • y j))
      (fun l hl => PresentAt.sub (present_bd h C.cols (by omega) hl (hu1 l hl)).1
        (fam_cycle h C.cols (by omega) hYb hl).1) fun k hk => by
      rw [cechSum_sub (fun l => E.bd 1 l 1 (u l)), cechSum_bd h C.diff C.cols (by omega) hk,
        ← hu2 k hk, map_sub, map_add, (fam_cycle h hc0 he hXb hk).2, (present_bd h hc0 he hk (hw k hk)).2,
        zero_add, sub_zero, neg_sub_left, add_comm, (S.comb ha1 hk).2, neg_zero]
    obtain ⟨β, w', hβ, hw'⟩ := exists_fam h hlen (show 0 < E.rows by omega) ht fun m hm =>
      ⟨hq1 m hm, by rw [bd_zero]; rfl⟩
    refine S.second.indep t a1 ha1 ?_
    refine fam_bounds h hD' hlen (by omega) hM' ht hYb
      (show E.BornBy 2 0 (-β) t by rw [← zero_sub]; exact BornBy.sub BornBy.zero hβ)
      (w := fun l => u l - E.cechSum D' 1 1 l w') fun l hl =>
      ⟨PresentAt.sub (hu1 l hl) (PresentAt.cechSum fun m hm => (hw' m hm).1), ?_⟩
    have e1 : E.cechSum D' 1 0 l (fun m => E.fam 2 0 m (-β)) =
        - (E.cechSum D' 1 0 l (fun m => E.bd 2 m 1 (w' m)) + E.cechSum D' 1 0 l q) := by
      rw [← cechSum_add, ← sub_eq_zero, sub_neg_eq_add, ← cechSum_add]
      refine (cechSum_congr fun m hm => ?_).trans cechSum_zero
      rw [(hw' m hm).2, map_neg, neg_add_cancel]
    rw [e1, ← hq2 l hl, cechSum_bd h hD' hlen (by omega) hl, map_sub]
    abel
  -- the classes on the first one
  have h0 : ∀ i, a0 i = 0 := by
    refine S.first.indep t a0 ht ha0 ?_
    rw [mem_NI h C he ht hXb]
    have ez : E.glSum 1 (fun k => ∑ j ∈ range b1.length, a1 j • v j k) = 0 := by
      refine (glSum_congr fun k _ => ?_).trans (map_zero (E.glSum 1))
      rw [Finset.sum_eq_zero fun j _ => by rw [h1 j, zero_smul]]; rfl
    rw [ez, add_zero] at hb
    exact hb
  intro i
  by_cases hi : i < b0.length
  · have := h0 i
    simp only [ha0e, if_pos hi] at this
    exact this
  · have := h1 (i - b0.length)
    simp only [ha1e] at this
    rwa [Nat.add_sub_of_le (by omega)] at this

theorem plane_span (h : SSOK rnd E ρ) (C : CoverOK E ρ N D) (hD' : E.nerveDiff[1]? = some D')
    (hlen : 2 < E.columns.length) (he : 1 < E.rows)
    (hM : firstDifferential E 0 0 = .ok M) (hM' : firstDifferential E 1 0 = .ok M')
    (S : PlaneData E ρ N D M M' b0 b1 x y v c0 c1) {t : α}
    (ht : t < E.maxR) {z : List ℕ →₀ ZMod E.p} (hz : z ∈ E.ZG ρ N 1 t) :
    ∃ a : ℕ → ZMod E.p, (∀ i, ¬ AliveBar (b0 ++ b1) i t → a i = 0) ∧
      z - ∑ i ∈ range (b0.length + b1.length), a i • E.stripGen 0 b0.length x v i ∈ E.BG ρ N 1 t := by
  have hc0 : 0 < E.columns.length := by have := C.cols; omega
  obtain ⟨hz1, hz2⟩ := hz
  obtain ⟨f, hf, rfl⟩ := exists_local C he.le ht hz1
  rw [SetLike.mem_coe, LinearMap.mem_ker, glSum_closed_iff h C (by omega)] at hz2
  -- the boundaries on the pieces are a Čech differential
  obtain ⟨q, hq1, hq2⟩ := cech_exact h C (deg := 0) (by omega) (t := t)
    (fun k hk => (present_bd h hc0 (by omega) hk (hf k hk)).1) (by rw [← glSum_eq]; exact hz2)
  obtain ⟨β, w, hβ, hw⟩ := exists_fam h C.cols (show 0 < E.rows by omega) ht fun l hl =>
    ⟨hq1 l hl, by rw [bd_zero]; rfl⟩
  obtain ⟨g1, w', hw'⟩ := fam_first h C.diff C.cols (by omega) hM hβ
  have hcf : ∀ k < E.spx 0, E.cechSum D 0 0 k (fun l => E.fam 1 0 l β) =
      E.bd 0 k 1 (f k) - E.bd 0 k 1 (E.cechSum D 0 1 k w) := by
    intro k hk
    rw [hq2 k hk, sub_eq_neg_add, ← cechSum_bd h C.diff C.cols (by omega) hk, ← cechSum_add]
    exact (cechSum_congr fun l hl => (hw l hl).2).symm
  have hdead : barRestr E.p (E.firstBars 0 0) t (M.mulVecL E.p β) = 0 := by
    refine fam_dead h hc0 (by omega) ht g1 (w := fun k => w' k + (f k - E.cechSum D 0 1 k w))
      fun k hk => ⟨?_, ?_⟩
    · exact PresentAt.add (hw' k hk).1 (PresentAt.sub (hf k hk) (PresentAt.cechSum fun l hl => (hw l hl).1))
    · rw [← (hw' k hk).2, map_add, map_sub, hcf k hk]
  have hker : barRestr E.p (E.firstBars 0 1) t β ∈ kerAt E.p (E.firstBars 0 1) (E.firstBars 0 0) M t := by
    refine ⟨⟨β, rfl⟩, ?_⟩
    rw [SetLike.mem_coe, LinearMap.mem_ker]
    unfold morAt
    rw [LinearMap.comp_apply, LinearMap.comp_apply]
    rw [show barRestr E.p (E.firstBars 0 1) t (barRestr E.p (E.firstBars 0 1) t β) =
      barRestr E.p (E.firstBars 0 1) t β from restr_restr _, first_dead h C.cols (by omega) hM hβ, hdead]
  obtain ⟨a1, ha1, hs1⟩ := S.second.span t _ hker
  rw [← map_sub] at hs1
  have hYb : E.BornBy 1 0 (∑ j ∈ range b1.length, a1 j • y j) t := S.second.comb ha1
  obtain ⟨κ, w2, hκ, hw2⟩ := bounds_fam h hD' hlen (by omega) hM' ht (BornBy.sub hβ hYb) hs1
  -- a family of cycles on the first column
  have hcyc : ∀ k < E.spx 0, E.PresentAt ρ 0 k 1 (f k + ∑ j ∈ range b1.length, a1 j • v j k +
      E.cechSum D 0 1 k (fun l => w2 l - w l)) t ∧ E.bd 0 k 1 (f k +
      ∑ j ∈ range b1.length, a1 j • v j k + E.cechSum D 0 1 k (fun l => w2 l - w l)) = 0 := by
    intro k hk
    refine ⟨PresentAt.add (PresentAt.add (hf k hk) (S.comb ha1 hk).1)
      (PresentAt.cechSum fun l hl => PresentAt.sub (hw2 l hl).1 (hw l hl).1), ?_⟩
    have e1 := (S.comb ha1 hk).2
    have e2 : E.cechSum D 0 0 k (fun l => E.fam 1 0 l β) -
        E.cechSum D 0 0 k (fun l => E.fam 1 0 l (∑ j ∈ range b1.length, a1 j • y j)) =
        - E.bd 0 k 1 (E.cechSum D 0 1 k w2) := by
      rw [← cechSum_sub, ← cechSum_bd h C.diff C.cols (by omega) hk]
      have e3 := cechSum_cechSum h C.diff hD' hlen (show 0 ≤ E.rows by omega) hk (fun m => E.fam 2 0 m κ)
      rw [← zero_add (E.cechSum D 0 0 k fun l => E.bd (0 + 1) l (0 + 1) (w2 l)), ← e3, ← cechSum_add]
      refine cechSum_congr fun l hl => ?_
      rw [← (hw2 l hl).2, map_sub]
    rw [hcf k hk] at e2
    rw [map_add, map_add, cechSum_sub, map_sub]
    rw [eq_neg_of_add_eq_zero_left e1]
    rw [sub_eq_iff_eq_add] at e2
    rw [sub_eq_iff_eq_add.1 e2]
    abel
  obtain ⟨ξ, w3, hξ, hw3⟩ := exists_fam h hc0 he ht hcyc
  obtain ⟨a0, ha0, hs0⟩ := S.first.span t (barRestr E.p (E.firstBars 1 0) t ξ) ht ⟨ξ, rfl⟩
  have hXb : E.BornBy 0 1 (∑ i ∈ range b0.length, a0 i • x i) t := S.first.comb ha0
  rw [← map_sub, mem_NI h C he ht (BornBy.sub hξ hXb)] at hs0
  refine ⟨fun i => if i < b0.length then a0 i else - a1 (i - b0.length), ?_, ?_⟩
  · intro i hi
    beta_reduce
    split
    · next hlt => exact ha0 i (by rwa [aliveBar_append_left hlt] at hi)
    · next hge =>
      rw [ha1 _ (by
        rw [show i = b0.length + (i - b0.length) by omega, aliveBar_append_right] at hi
        exact hi), neg_zero]
  · rw [sum_stripGen]
    have eA : ∑ i ∈ range b0.length, (fun i => if i < b0.length then a0 i else - a1 (i - b0.length)) i • x i =
        ∑ i ∈ range b0.length, a0 i • x i :=
      Finset.sum_congr rfl fun i hi => by beta_reduce; rw [if_pos (mem_range.1 hi)]
    have eB : E.glSum 1 (fun k => ∑ j ∈ range b1.length,
        (fun i => if i < b0.length then a0 i else - a1 (i - b0.length)) (b0.length + j) • v j k) =
        - E.glSum 1 (fun k => ∑ j ∈ range b1.length, a1 j • v j k) := by
      rw [← map_neg]
      refine glSum_congr fun k _ => ?_
      rw [Pi.neg_apply, ← Finset.sum_neg_distrib]
      refine Finset.sum_congr rfl fun j _ => ?_
      beta_reduce
      rw [if_neg (by omega), Nat.add_sub_cancel_left, neg_smul]
    rw [eA, eB]
    have e4 : E.glSum 1 (fun k => E.bd 0 k (1 + 1) (w3 k)) + (E.glSum 1 f +
        E.glSum 1 (fun k => ∑ j ∈ range b1.length, a1 j • v j k) +
        E.glSum 1 (fun k => E.cechSum D 0 1 k (fun l => w2 l - w l))) =
        E.whole 1 ξ := by
      rw [← glSum_add', ← glSum_add', ← glSum_add', whole_eq]
      exact glSum_congr fun k hk => (hw3 k hk).2
    rw [glSum_cech h C he.le, add_zero] at e4
    have e5 := glSum_bd_mem h C he (t := t) (w := w3) fun k hk => (hw3 k hk).1
    have : E.glSum 1 f - (E.whole 1 (∑ i ∈ range b0.length, a0 i • x i) +
        - E.glSum 1 (fun k => ∑ j ∈ range b1.length, a1 j • v j k)) =
        E.whole 1 (ξ - ∑ i ∈ range b0.length, a0 i • x i) -
          E.glSum 1 (fun k => E.bd 0 k (1 + 1) (w3 k)) := by
      rw [map_sub, ← e4]; abel
    rw [this]
    exact Submodule.sub_mem _ hs0 e5

/-- The entries of the last page in total degree one and their chains resolve the homology of degree one of
the whole complex. -/
theorem plane_resolves (h : SSOK rnd E ρ) (C : CoverOK E ρ N D) (hD' : E.nerveDiff[1]? = some D')
    (hI : E.CechEx ρ D D') (hlen : 2 < E.columns.length) (he : 1 < E.rows)
    (hM : firstDifferential E 0 0 = .ok M) (hM' : firstDifferential E 1 0 = .ok M')
    (S : PlaneData E ρ N D M M' b0 b1 x y v c0 c1) (hF : Fact E.p.Prime) {BD : ℕ → ℕ → ZMod E.p}
    (hBD : ∀ i < b0.length + b1.length, ∀ j < b0.length + b1.length, BD i j =
      if b0.length ≤ j then (if i < b0.length then c0 i (j - b0.length)
        else c1 (i - b0.length) (j - b0.length)) else 0) :
    Resolves (b0 ++ b1) E.maxR BD (E.ZG ρ N 1) (E.BG ρ N 1) (E.stripGen 0 b0.length x v) := by
  have hc0 : 0 < E.columns.length := by have := C.cols; omega
  have hborn : ∀ j b, (b0 ++ b1)[j]? = some b → E.stripGen 0 b0.length x v j ∈ E.ZG ρ N 1 b.1 := by
    intro j b hb
    unfold SSEnv.stripGen
    split
    · next hlt =>
      rw [List.getElem?_append_left hlt] at hb
      have hcy := fun k hk => fam_cycle h hc0 he (S.first.born j b hb) (k := k) hk
      refine ⟨glSum_present h C he.le fun k hk => (hcy k hk).1, ?_⟩
      rw [SetLike.mem_coe, LinearMap.mem_ker, whole_eq, glSum_closed_iff h C (by omega)]
      refine (glSum_congr fun k hk => ?_).trans (map_zero (E.glSum 0))
      rw [(hcy k hk).2]; rfl
    · next hge =>
      rw [List.getElem?_append_right (by omega)] at hb
      have hl := fun k hk => S.lift _ b hb k hk
      refine ⟨glSum_present h C he.le fun k hk => (hl k hk).1, ?_⟩
      rw [SetLike.mem_coe, LinearMap.mem_ker, glSum_closed_iff h C (by omega)]
      refine (glSum_congr (c' := - fun k => E.cechSum D 0 0 k
        (fun l => E.fam 1 0 l (y (j - b0.length)))) fun k hk => ?_).trans ?_
      · rw [Pi.neg_apply]; exact eq_neg_of_add_eq_zero_left (hl k hk).2
      · rw [map_neg, glSum_cech h C (by omega), neg_zero]
  refine ⟨fun s t hst => inf_le_inf_right _ (chG_mono hst), fun s t hst => Submodule.map_mono (chG_mono hst),
    hborn, fun t ht a hb ha => ?_, fun t ht => ?_, fun j b hb hR => ?_⟩
  · rw [List.length_append] at hb
    exact plane_indep h C hD' hI hlen he hM' S ht ha hb
  · apply le_antisymm
    · intro z hz
      obtain ⟨a, ha, hm⟩ := plane_span h C hD' hlen he hM hM' S ht hz
      rw [← add_sub_cancel (∑ i ∈ range (b0.length + b1.length), a i • E.stripGen 0 b0.length x v i) z]
      refine Submodule.add_mem_sup (Submodule.sum_mem _ fun i _ => ?_) hm
      by_cases h0 : a i = 0
      · rw [h0, zero_smul]; exact Submodule.zero_mem _
      · refine Submodule.smul_mem _ _ (Submodule.subset_span ⟨i, ?_, rfl⟩)
        by_contra hn
        exact h0 (ha i hn)
    · refine sup_le (Submodule.span_le.2 ?_) ?_
      · rintro _ ⟨j, ⟨b, hb, hb1, -⟩, rfl⟩
        exact inf_le_inf_right _ (chG_mono hb1) (hborn j b hb)
      · intro z hz
        obtain ⟨w, hw, rfl⟩ := mem_BG h C he ht hz
        have hp := fun k hk => present_bd h hc0 he hk (hw k hk)
        refine ⟨glSum_present h C he.le fun k hk => (hp k hk).1, ?_⟩
        rw [SetLike.mem_coe, LinearMap.mem_ker, glSum_closed_iff h C (by omega)]
        refine (glSum_congr fun k hk => ?_).trans (map_zero (E.glSum 0))
        rw [(hp k hk).2]; rfl
  · have hjl : j < b0.length + b1.length := by
      have := (List.getElem?_eq_some_iff.1 hb).1
      rwa [List.length_append] at this
    rw [List.length_append, Finset.sum_congr rfl fun i hi => by rw [hBD i (mem_range.1 hi) j hjl]]
    by_cases hj : j < b0.length
    · rw [Finset.sum_eq_zero fun i _ => by rw [if_neg (by omega), zero_smul], sub_zero]
      unfold SSEnv.stripGen
      rw [if_pos hj]
      rw [List.getElem?_append_left hj] at hb
      refine (mem_NI h C he hR ?_).1 (S.first.dead j b b.2 hb le_rfl hR)
      exact BornBy.mono (S.first.wf b (List.mem_of_getElem? hb)).le (S.first.born j b hb)
    · rw [List.getElem?_append_right (by omega)] at hb
      have hd := S.dies _ b hb hR
      have e1 : ∑ i ∈ range (b0.length + b1.length), (if b0.length ≤ j then (if i < b0.length then
          c0 i (j - b0.length) else c1 (i - b0.length) (j - b0.length)) else 0) •
            E.stripGen 0 b0.length x v i =
          ∑ i ∈ range b0.length, c0 i (j - b0.length) • E.whole 1 (x i) +
            ∑ i ∈ range b1.length, c1 i (j - b0.length) • E.glSum 1 (v i) := by
        rw [Finset.sum_range_add]
        congr 1
        · refine Finset.sum_congr rfl fun i hi => ?_
          have := mem_range.1 hi
          unfold SSEnv.stripGen
          rw [if_pos (by omega), if_pos this, if_pos this]
        · refine Finset.sum_congr rfl fun i hi => ?_
          unfold SSEnv.stripGen
          rw [if_pos (by omega), if_neg (by omega), if_neg (by omega), Nat.add_sub_cancel_left]
      rw [e1]
      unfold SSEnv.stripGen
      rw [if_neg hj]
      exact hd

end

end

end Permaviss
