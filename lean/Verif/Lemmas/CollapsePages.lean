import Verif.Lemmas.Collapse
import Verif.Lemmas.PlaneDiag

/-!
# The pages and the diagonal when the second page has one entry in a total degree
-/

namespace Permaviss

open Finset

attribute [-instance] instMulZeroClassOfSemiring

section

variable {α : Type} [LinearOrder α] [Zero α] {rnd : α → α} {E : SSEnv α} {ρ : List ℕ → α}

/-- The module in position zero is kept when the next one is zero. -/
theorem mph_keep_next {p : ℕ} {D : List Mat} {Base : List (Basis α)}
    (hz : ∀ X, Base[1]? = some X → X.dim = 0) {B : Basis α} (hB : Base[0]? = some B)
    (hdim : B.dim = B.barcode.length) (hflat : B.flat = true → B.barcode = [])
    (hbars : ∀ b ∈ B.barcode, b.1 < b.2) (hsort : B.barcode.Pairwise (barLE rnd)) {out : MPH α}
    (h : modulePersistenceHomology rnd p D Base = .ok out) :
    ∃ H, out.hom.getD 0 none = some H ∧ H.barcode = B.barcode ∧ H.dim = B.dim ∧
      (B.dim ≠ 0 → H.flat = false) ∧ (B.dim = 0 → H = B) := by
  have hl : 0 < Base.length := (List.getElem?_eq_some_iff.1 hB).1
  suffices hs : ∃ st I, 0 < st.hom.length ∧ st.im[0]? = some (some I) ∧ I.dim = 0 ∧ I.barcode = [] ∧
      mphZero rnd p Base st = .ok out by
    obtain ⟨st, I, s1, s2, s3, s4, s5⟩ := hs
    obtain ⟨-, H, k1, k2, k3, k4, k5⟩ := mphZero_keep hB hdim hflat hbars hsort s1 s2 s3 s4 s5
    exact ⟨H, k1, k2, k3, fun h0 => (k4 h0).1, k5⟩
  obtain ⟨st, st', l1, l2, ⟨I, i1, i2, i3⟩, h1, h2⟩ := mph_open hl h
  by_cases hlen : Base.length = 1
  · rw [hlen] at h1 i1
    cases h1
    exact ⟨st, I, by omega, i1, i2, i3, h2⟩
  · obtain ⟨s1, s2, ⟨p1, p2⟩, h3, h4⟩ := mph_split (n := 0) (Base.length - 1) (by omega)
      (fun _ s => s.hom.length = Base.length ∧ s.im.length = Base.length) (fun d s s' _ _ hP hs => by
        obtain ⟨⟨H, e1⟩, J, e2⟩ := mphStep_frame hs
        rw [e1, e2, List.length_set, List.length_set]; exact hP) st st' ⟨l1, l2⟩ h1
    cases h4
    unfold mphStep at h3
    rw [List.getElem?_eq_getElem (show 0 + 1 < Base.length by omega), show 0 + 1 - 1 = 0 from rfl, hB] at h3
    dsimp only at h3
    rw [if_pos (hz _ (List.getElem?_eq_getElem (show 1 < Base.length by omega)))] at h3
    cases h3
    refine ⟨_, emptyBasis B, ?_, List.getElem?_set_self (by omega), rfl, rfl, h2⟩
    rw [List.length_set]; omega

/-- Nothing is stored. -/
def ZeroAt (S : SSt α) (k n deg : ℕ) : Prop :=
  (S.hom k n deg).basis.dim = 0 ∧ (S.hom k n deg).basis.barcode = []

/-- Nothing is stored beyond the last column. -/
theorem allPages_beyond {N : ℕ} (hNp : E.noPages ≤ N + 1) {S : SSt α} (h : allPages rnd E N = .ok S) :
    ∀ k n deg, N ≤ n → ZeroAt S k n deg := by
  unfold allPages at h
  rw [bind_ok] at h
  obtain ⟨T, h3, h4⟩ := h
  have key : ∀ (S S' : SSt α) out base positions page, Written S S' out base positions page →
      (∀ x ∈ positions, x.1 < N) → (∀ k n deg, N ≤ n → ZeroAt S k n deg) →
      ∀ k n deg, N ≤ n → ZeroAt S' k n deg := by
    intro S S' out base positions page w hp hI k n deg hn
    unfold ZeroAt
    rw [(w.old k n deg fun hc => by have := hp _ hc.2; dsimp only at this; omega).1]
    exact hI k n deg hn
  refine foldlM_ok_inv (fun S => ∀ k n deg, N ≤ n → ZeroAt S k n deg) ?_ h4 ?_
  · intro T cp T' hcp hT hI
    obtain ⟨i, hi, rfl⟩ := List.mem_map.1 hcp
    have hi := List.mem_range.1 hi
    unfold pageHigher at hT
    refine foldlM_ok_inv (fun S => ∀ k n deg, N ≤ n → ZeroAt S k n deg) ?_ hT hI
    intro U s U' hs hU hI
    have hs' := (mem_pageStarts.1 hs).1
    obtain ⟨diffs, out, -, r3, w⟩ := pageSequence_written (by omega) (by omega : s.1 < N) hU
    refine key _ _ _ _ _ _ w (fun x hx => ?_) hI
    exact ((mem_sweep_iff (n := x.1) (deg := x.2) (by omega) hs' (by omega)).1 hx).1
  · refine foldlM_ok_inv (fun S => ∀ k n deg, N ≤ n → ZeroAt S k n deg) ?_ h3 fun k n deg _ => ⟨rfl, rfl⟩
    intro T deg T' _ hT hI
    obtain ⟨base, diffs, out, r1, -, r3, w⟩ := pageOneRow_written hT
    refine key _ _ _ _ _ _ w (fun x hx => ?_) hI
    obtain ⟨n, hn, rfl⟩ := List.mem_map.1 hx
    exact List.mem_range.1 hn

/-- The positions which are to be zero. -/
def Collapsing (e n deg : ℕ) : Prop := (1 ≤ n ∧ n + deg = e + 1) ∨ (2 ≤ n ∧ n + deg = e + 2)

/-- Zero positions stay zero, and the first position is kept. -/
theorem pages_collapse {N e : ℕ} (he : e + 1 < E.rows) {T : SSt α} {H : Basis α}
    (hH : (T.hom 1 0 (e + 1)).basis = H) (d1 : H.dim = H.barcode.length) (d2 : ∀ b ∈ H.barcode, b.1 < b.2)
    (d3 : H.barcode.Pairwise (barLE rnd)) (d4 : H.flat = true → H.barcode = [])
    (hz : ∀ n deg, n < N → Collapsing e n deg → ZeroAt T 1 n deg) (m : ℕ) :
    ∀ U, ((List.range m).map (· + 2)).foldlM (pageHigher rnd E N) T = .ok U → m + 1 ≤ N →
      ∀ k, 1 ≤ k → k ≤ m + 1 → (∀ n deg, n < N → Collapsing e n deg → ZeroAt U k n deg) ∧
        (U.hom k 0 (e + 1)).basis.barcode = H.barcode ∧ (U.hom k 0 (e + 1)).basis.dim = H.dim ∧
        ((U.hom k 0 (e + 1)).basis.flat = true → H.barcode = []) := by
  induction m with
  | zero =>
    intro U hU _ k hk1 hk2
    cases hU
    obtain rfl : k = 1 := by omega
    rw [hH]
    exact ⟨hz, rfl, rfl, d4⟩
  | succ m ih =>
    intro U hU hm k hk1 hk2
    rw [List.range_succ, List.map_append, List.foldlM_append, bind_ok] at hU
    obtain ⟨V, hV, hU⟩ := hU
    have ihV := ih V hV (by omega)
    rw [List.map_singleton, List.foldlM_cons, bind_ok] at hU
    obtain ⟨U', hU, hU'⟩ := hU
    cases hU'
    have hpage := fun n deg (hn : n < N) => C50_page rnd E N (m + 2) (by omega) (by omega) V U hU n deg hn
    by_cases hkm : k = m + 2
    swap
    · have hother := (hpage 0 0 (by omega)).2.2
      obtain ⟨i1, i2, i3, i4⟩ := ihV k hk1 (by omega)
      refine ⟨fun n deg hn hc => ?_, ?_⟩
      · unfold ZeroAt
        rw [(hother k n deg hkm).1]
        exact i1 n deg hn hc
      · rw [(hother k 0 (e + 1) hkm).1]
        exact ⟨i2, i3, i4⟩
    subst hkm
    obtain ⟨i1, i2, i3, i4⟩ := ihV (m + 1) (by omega) (by omega)
    refine ⟨fun n deg hn hc => ?_, ?_⟩
    · have hb : n + deg ≤ E.rows ∧ deg < E.rows := by unfold Collapsing at hc; omega
      obtain ⟨s, i, out, F⟩ := (hpage n deg hn).1 hb.1 hb.2
      obtain ⟨S1, diffs, -, -, r3⟩ := F.run
      obtain ⟨X, x1, x2⟩ := F.hom
      unfold ZeroAt
      rw [x2]
      have hlt : n % (m + 2) < m + 2 := Nat.mod_lt _ (by omega)
      have hle : n % (m + 2) ≤ n := Nat.mod_le _ _
      refine mph_zero_at r3 (i := i) (X := (V.hom (m + 2 - 1) n deg).basis) ?_ (i1 n deg hn hc) x1
      rw [F.start, F.index, List.getElem?_map, sweep_get (by omega) N _ _ _ (by dsimp only; omega)
        (by dsimp only; omega)]
      dsimp only
      have hdm : n % (m + 2) + n / (m + 2) * (m + 2) = n := by
        rw [Nat.mul_comm]; exact Nat.mod_add_div _ _
      rw [if_pos ⟨by omega, by omega⟩, Option.map_some, hdm, Nat.add_sub_cancel]
    · obtain ⟨s, i, out, F⟩ := (hpage 0 (e + 1) (by omega)).1 (by omega) he
      obtain ⟨S1, diffs, -, -, r3⟩ := F.run
      obtain ⟨X, x1, x2⟩ := F.hom
      have hs : s = (0, e + 1) := by rw [F.start]; simp
      have hi : i = 0 := by rw [F.index]; simp
      subst hs hi
      rw [show m + 2 - 1 = m + 1 by omega] at r3
      have d1' : (V.hom (m + 1) 0 (e + 1)).basis.dim = (V.hom (m + 1) 0 (e + 1)).basis.barcode.length := by
        rw [i2, i3, d1]
      obtain ⟨X', y1, y2, y3, y4, y5⟩ := mph_keep_next (B := (V.hom (m + 1) 0 (e + 1)).basis)
        (fun Y hY => by
          rw [List.getElem?_map, sweep_get (by omega) N _ _ _ (by dsimp only; omega) (by dsimp only; omega)] at hY
          dsimp only at hY
          split at hY
          · next hc =>
            cases hY
            rw [Nat.one_mul] at *
            refine (i1 _ _ (by omega) (Or.inr ⟨by omega, by omega⟩)).1
          · cases hY)
        (by
          rw [List.getElem?_map, sweep_get (by omega) N _ _ _ (by dsimp only; omega) (by dsimp only; omega)]
          dsimp only
          rw [if_pos ⟨by omega, by omega⟩]
          simp)
        d1' (fun hf => by rw [i2]; exact i4 hf) (by rw [i2]; exact d2) (by rw [i2]; exact d3) r3
      rw [x1] at y1
      obtain rfl := Option.some.inj y1
      rw [x2]
      refine ⟨y2.trans i2, y3.trans i3, fun hf => ?_⟩
      by_cases h0 : (V.hom (m + 1) 0 (e + 1)).basis.dim = 0
      · rw [i3, d1] at h0; exact List.length_eq_zero_iff.1 h0
      · rw [y4 h0] at hf; cases hf

/-- The higher pages do not change the second one. -/
theorem pages_second {N : ℕ} {T : SSt α} (m : ℕ) : ∀ U,
    ((List.range m).map (· + 2)).foldlM (pageHigher rnd E N) T = .ok U → m + 1 ≤ N →
      ∀ n deg, U.hom 1 n deg = T.hom 1 n deg := by
  induction m with
  | zero => intro U hU _ n deg; cases hU; rfl
  | succ m ih =>
    intro U hU hm n deg
    rw [List.range_succ, List.map_append, List.foldlM_append, bind_ok] at hU
    obtain ⟨V, hV, hU⟩ := hU
    rw [List.map_singleton, List.foldlM_cons, bind_ok] at hU
    obtain ⟨U', hU, hU'⟩ := hU
    cases hU'
    rw [((C50_page rnd E N (m + 2) (by omega) (by omega) V U hU 0 0 (by omega)).2.2 1 n deg (by omega)).1]
    exact ih V hV (by omega) n deg

/-- A diagonal with one entry. -/
theorem diagonal_single {S : SSt α} {nc e : ℕ} (hnc : 1 ≤ nc) (h2 : 2 ≤ E.noPages) {Q : Basis α}
    (dQ : Q.dim = Q.barcode.length)
    (q1 : (S.hom (E.noPages - 1) 0 (e + 1)).basis.barcode = Q.barcode)
    (q2 : (S.hom (E.noPages - 1) 0 (e + 1)).basis.dim = Q.dim)
    (hz : ∀ n, 1 ≤ n → n ≤ e + 1 → ZeroAt S (E.noPages - 1) n (e + 1 - n))
    {out : Option (Basis α)} (hrun : diagonal rnd E S nc (e + 1) = .ok out) :
    (Q.barcode = [] ∧ out = none) ∨
    (Q.barcode ≠ [] ∧ ∃ im, out = some im ∧ glueBars rnd E.p E.maxR Q.barcode
      ⟨Q.dim, List.replicate Q.dim (List.replicate Q.dim 0)⟩ = .ok im) := by
  unfold diagonal at hrun
  dsimp only at hrun
  obtain ⟨r, hr⟩ : ∃ r, min (e + 1 + 1) nc = r + 1 := ⟨min (e + 1 + 1) nc - 1, by omega⟩
  rw [hr, List.range_succ_eq_map] at hrun
  have hpg : ∀ deg n, S.pageDim E E.noPages deg n = (S.hom (E.noPages - 1) n deg).basis.dim := by
    intro deg n
    unfold SSt.pageDim
    rw [if_neg (by omega)]
  have hdims : (0 :: (List.range r).map Nat.succ).map (fun n => S.pageDim E E.noPages (e + 1 - n) n) =
      Q.dim :: List.replicate r 0 := by
    rw [List.map_cons, List.map_map]
    congr 1
    · rw [hpg]; exact q2
    rw [List.eq_replicate_iff]
    refine ⟨by simp, fun b hb => ?_⟩
    obtain ⟨n, hn, rfl⟩ := List.mem_map.1 hb
    have := List.mem_range.1 hn
    rw [Function.comp_apply, hpg]
    exact (hz _ (by omega) (by omega)).1
  have hsum : (Q.dim :: List.replicate r 0).sum = Q.dim := by simp
  have hbars : (0 :: (List.range r).map Nat.succ).flatMap
      (fun n => (S.hom (E.noPages - 1) n (e + 1 - n)).basis.barcode) = Q.barcode := by
    rw [List.flatMap_cons]
    have : ((List.range r).map Nat.succ).flatMap
        (fun n => (S.hom (E.noPages - 1) n (e + 1 - n)).basis.barcode) = [] := by
      rw [List.flatMap_eq_nil_iff]
      intro n hn
      obtain ⟨i, hi, rfl⟩ := List.mem_map.1 hn
      have := List.mem_range.1 hi
      exact (hz _ (by omega) (by omega)).2
    rw [this, List.append_nil]
    exact q1
  rw [hdims, hsum, hbars] at hrun
  by_cases h0 : Q.dim = 0
  · rw [if_pos h0] at hrun
    exact Or.inl ⟨List.length_eq_zero_iff.1 (by rw [← dQ, h0]), (Except.ok.inj hrun).symm⟩
  right
  refine ⟨fun hc => h0 (by rw [dQ, hc]; rfl), ?_⟩
  rw [if_neg h0, bind_ok] at hrun
  obtain ⟨cols, hcols, hrun⟩ := hrun
  rw [List.mapM_cons, bind_ok] at hcols
  obtain ⟨c0, hc0, hcols⟩ := hcols
  rw [bind_ok] at hcols
  obtain ⟨c2, hc2, hcols⟩ := hcols
  cases hcols
  have hc2' : c2.flatten = [] := by
    rw [List.flatten_eq_nil_iff]
    intro X hX
    obtain ⟨m1, m2⟩ := mapM_ok_spec hc2
    obtain ⟨i, hi, rfl⟩ := List.getElem_of_mem hX
    have := extColumns_length (m2 i (by omega) hi)
    rw [List.getElem_map, List.getElem_range] at this
    rw [List.length_map, List.length_range] at m1
    refine List.length_eq_zero_iff.1 (this.trans ?_)
    rw [List.getD_cons_succ, List.getD_eq_getElem?_getD, List.getElem?_replicate]
    split <;> rfl
  have hc0' : c0 = List.replicate Q.dim (List.replicate Q.dim 0) := by
    unfold extColumns at hc0
    rw [if_pos (Or.inl rfl), hsum] at hc0
    exact (Except.ok.inj hc0).symm
  rw [List.flatten_cons, hc2', List.append_nil, hc0', bind_ok] at hrun
  obtain ⟨im, him, hrun⟩ := hrun
  exact ⟨im, (Except.ok.inj hrun).symm, him⟩

/-- The first entry of the second page and its chains resolve the homology of the whole complex. -/
theorem collapse_resolves (h : SSOK rnd E ρ) {N N' : ℕ} {S : ℕ → List (List ℕ)} {adj : ℕ → ℕ → Prop} {D M : Mat}
    (C : CoverOK E ρ N D) (H : NerveOK E N' S adj) {e : ℕ} (he : e + 1 < E.rows)
    (hM : firstDifferential E 0 (e + 1) = .ok M)
    (hac1 : ∀ t < E.maxR, ∀ i ≤ e, i + 1 < E.columns.length → E.ColAcyclic ρ i (e - i) t)
    (hac2 : ∀ t < E.maxR, ∀ i ≤ e, i + 2 < E.columns.length → E.ColAcyclic ρ (i + 1) (e - i) t)
    {bars : List (α × α)} {x : ℕ → ℕ → ZMod E.p}
    (X : Gens E 0 (e + 1) bars x (barModule E.p (E.firstBars (e + 1) 0))
      (imAt E.p (E.firstBars (e + 1) 1) (E.firstBars (e + 1) 0) M)) (hF : Fact E.p.Prime)
    {BD : ℕ → ℕ → ZMod E.p} (hBD : ∀ i j, BD i j = 0) :
    Resolves bars E.maxR BD (E.ZG ρ N (e + 1)) (E.BG ρ N (e + 1)) fun i => E.whole (e + 1) (x i) := by
  have hc0 : 0 < E.columns.length := by have := C.cols; omega
  have hborn : ∀ j b, bars[j]? = some b → E.whole (e + 1) (x j) ∈ E.ZG ρ N (e + 1) b.1 := by
    intro j b hb
    have hcy := fun k hk => fam_cycle h hc0 he (X.born j b hb) (k := k) hk
    refine ⟨glSum_present h C he.le fun k hk => (hcy k hk).1, ?_⟩
    rw [SetLike.mem_coe, LinearMap.mem_ker, whole_eq, glSum_closed_iff h C (by omega)]
    refine (glSum_congr fun k hk => ?_).trans (map_zero (E.glSum e))
    rw [(hcy k hk).2]; rfl
  have hsum : ∀ a : ℕ → ZMod E.p, ∑ i ∈ range bars.length, a i • E.whole (e + 1) (x i) =
      E.whole (e + 1) (∑ i ∈ range bars.length, a i • x i) := by
    intro a
    rw [map_sum]
    exact Finset.sum_congr rfl fun i _ => (map_smul _ _ _).symm
  have hcomb : ∀ t (a : ℕ → ZMod E.p), (∀ i, ¬ AliveBar bars i t → a i = 0) →
      E.BornBy 0 (e + 1) (∑ i ∈ range bars.length, a i • x i) t := by
    intro t a ha
    refine bornBy_comb X.born (fun i hi => ?_) _
    have : AliveBar bars i t := by by_contra hn; exact hi (ha i hn)
    obtain ⟨b, hb, hb1, -⟩ := this
    exact ⟨b, hb, hb1⟩
  refine ⟨fun s t hst => inf_le_inf_right _ (chG_mono hst), fun s t hst => Submodule.map_mono (chG_mono hst),
    hborn, fun t ht a hb ha => ?_, fun t ht => ?_, fun j b hb hR => ?_⟩
  · rw [hsum] at hb
    exact X.indep t a ha (collapse_bounds h C H he hM ht (hac2 t ht) (hcomb t a ha) hb)
  · apply le_antisymm
    · intro z hz
      obtain ⟨y, hy, hzy⟩ := collapse_span h C H he ht (hac1 t ht) hz
      obtain ⟨a, ha, hm⟩ := X.span t (barRestr E.p (E.firstBars (e + 1) 0) t y) ⟨y, rfl⟩
      rw [← map_sub] at hm
      have hw := whole_of_bounds h C he hM ht (BornBy.sub hy (hcomb t a ha)) hm
      rw [map_sub, ← hsum] at hw
      have e1 : z = ∑ i ∈ range bars.length, a i • E.whole (e + 1) (x i) + ((z - E.whole (e + 1) y) +
          (E.whole (e + 1) y - ∑ i ∈ range bars.length, a i • E.whole (e + 1) (x i))) := by abel
      rw [e1]
      refine Submodule.add_mem_sup (Submodule.sum_mem _ fun i _ => ?_) (Submodule.add_mem _ hzy hw)
      by_cases h0 : a i = 0
      · rw [h0, zero_smul]; exact Submodule.zero_mem _
      · refine Submodule.smul_mem _ _ (Submodule.subset_span ⟨i, ?_, rfl⟩)
        by_contra hn
        exact h0 (ha i hn)
    · refine sup_le (Submodule.span_le.2 ?_) ?_
      · rintro _ ⟨j, ⟨b, hb, hb1, -⟩, rfl⟩
        exact inf_le_inf_right _ (chG_mono hb1) (hborn j b hb)
      · intro z hz
        obtain ⟨w, hw, rfl⟩ := mem_BG h C he ht hz
        have hp := fun k hk => present_bd h hc0 he hk (hw k hk)
        refine ⟨glSum_present h C he.le fun k hk => (hp k hk).1, ?_⟩
        rw [SetLike.mem_coe, LinearMap.mem_ker, glSum_closed_iff h C (by omega)]
        refine (glSum_congr fun k hk => ?_).trans (map_zero (E.glSum e))
        rw [(hp k hk).2]; rfl
  · rw [Finset.sum_eq_zero fun i _ => by rw [hBD, zero_smul], sub_zero]
    exact whole_of_bounds h C he hM hR
      (BornBy.mono (X.wf b (List.mem_of_getElem? hb)).le (X.born j b hb)) (X.dead j b b.2 hb le_rfl)

/-- The homology of degree `e + 1` is what the diagonal gives. -/
theorem collapse_diagonal (h : SSOK rnd E ρ) {N N' : ℕ} {Sx : ℕ → List (List ℕ)} {adj : ℕ → ℕ → Prop} {D : Mat}
    (C : CoverOK E ρ N D) (H : NerveOK E N' Sx adj) {e : ℕ} (he : e + 1 < E.rows)
    (hNp : E.noPages ≤ E.columns.length + 1) (h4 : 2 ≤ E.noPages)
    (hround : ∀ i < E.rows, ∀ n m, ∀ a ∈ E.firstBars i n,
      ∀ b ∈ E.firstBars i m, ∀ x, x = a.1 ∨ x = a.2 → ∀ y, y = b.1 ∨ y = b.2 → rnd x ≤ rnd y → x ≤ y)
    {S : SSt α} (hS : allPages rnd E E.columns.length = .ok S)
    (hz : ∀ n deg, n < E.columns.length → Collapsing e n deg → (S.hom 1 n deg).basis.barcode = [])
    {nc : ℕ} (hnc : 1 ≤ nc) {out : Option (Basis α)} (hrun : diagonal rnd E S nc (e + 1) = .ok out) :
    have := Fact.mk h.prime
    (out = none ∧ ∀ s t, s ≤ t → t < E.maxR →
      rankThrough (E.ZG ρ N (e + 1)) (E.BG ρ N (e + 1)) s t = 0) ∨
    ∃ Q, out = some Q ∧ (∀ b ∈ Q.barcode, b.1 < b.2) ∧
      (∀ s t, s ≤ t → t < E.maxR →
        barsThrough Q.barcode s t = rankThrough (E.ZG ρ N (e + 1)) (E.BG ρ N (e + 1)) s t) ∧
      ∀ s t, s ≤ t → E.maxR ≤ t → barsThrough Q.barcode s t = 0 := by
  intro hF
  have hc1 := C.cols
  obtain ⟨M, hM, -⟩ := firstDifferential_spec h C.diff C.cols he
  -- the second page
  have hpage : ∀ n deg, n < E.columns.length → Collapsing e n deg →
      ZeroAt S 1 n deg ∧ ∀ t < E.maxR, E.ColAcyclic ρ (n - 1) deg t := by
    intro n deg hn hc
    have hdeg : deg < E.rows := by unfold Collapsing at hc; omega
    have hn1 : 1 ≤ n := by unfold Collapsing at hc; omega
    have h0 := hz n deg hn hc
    obtain ⟨base, diffs, R⟩ := row_input h (by omega) hdeg (hround deg hdeg)
    obtain ⟨hH, -⟩ := second_page_all h (by omega) hNp hS hdeg (hround deg hdeg) R hn
    have hgap : ¬ (0 < n ∧ barsAt base (n - 1) = [] ∧ barsAt base n ≠ []) := by
      rintro ⟨a, b, c⟩
      have := barsAt_eq (hH.whole a b c)
      rw [h0] at this
      exact c this
    have hg : HomGood E.p (⟨0, []⟩ :: diffs) base n (S.hom 1 n deg).basis :=
      hH.good fun a b c => absurd ⟨a, b, c⟩ hgap
    have hgens := hg.gens fun a b c => hgap ⟨by omega, c, a⟩
    refine ⟨⟨by rw [hgens.dim, h0]; rfl, h0⟩, fun t ht => ?_⟩
    obtain ⟨m, rfl⟩ : ∃ m, n = m + 1 := ⟨n - 1, by omega⟩
    exact colAcyclic_of_empty h hdeg hn R hH h0 ht
  obtain ⟨T, hT, hrow⟩ := allPages_rows hS
  obtain ⟨S0, S1, r1, r2⟩ := hrow (e + 1) he
  obtain ⟨Hb, I1, F⟩ := first_pos h (by omega) he (hround (e + 1) he) r1 hM
  have hsec := pages_second (E.noPages - 2) S hT (by omega)
  obtain ⟨p1, p2, p3, -⟩ := pages_collapse he (H := Hb) (by rw [(r2 0).1]; exact F.hom) F.liftH.dim F.gens.wf
    F.srt F.flat (fun n deg hn hc => by
      have := (hpage n deg hn hc).1
      unfold ZeroAt at this ⊢
      rwa [hsec] at this) (E.noPages - 2) S hT (by omega) (E.noPages - 1) (by omega) (by omega)
  have hRes := fun (BD : ℕ → ℕ → ZMod E.p) hBD => collapse_resolves h C H he hM
    (fun t ht i hi hlt => (hpage (i + 1) (e - i) hlt (Or.inl ⟨by omega, by omega⟩)).2 t ht)
    (fun t ht i hi hlt => (hpage (i + 2) (e - i) hlt (Or.inr ⟨by omega, by omega⟩)).2 t ht) F.gens hF
    (BD := BD) hBD
  rcases diagonal_single hnc h4 F.liftH.dim p2 p3 (fun n hn1 hn2 => by
      by_cases hn : n < E.columns.length
      · exact p1 n _ hn (Or.inl ⟨hn1, by omega⟩)
      · exact allPages_beyond hNp hS _ n _ (by omega)) hrun with ⟨hnil, rfl⟩ | ⟨hne, im, rfl, him⟩
  · refine Or.inl ⟨rfl, fun s t hst htR => ?_⟩
    have hR := hRes (fun _ _ => 0) fun _ _ => rfl
    rw [hnil] at hR
    have hs := hR.span s (lt_of_le_of_lt hst htR)
    have : {y | ∃ j, AliveBar ([] : List (α × α)) j s ∧ y = E.whole (e + 1) (Hb.coords.zcol E.p j)} = ∅ := by
      ext y
      simp only [Set.mem_setOf_eq, Set.mem_empty_iff_false, iff_false]
      rintro ⟨j, ⟨b, hb, -⟩, -⟩
      simp at hb
    rw [this, Submodule.span_empty, bot_sup_eq] at hs
    unfold rankThrough
    have h0 : (E.ZG ρ N (e + 1) s).map (E.BG ρ N (e + 1) t).mkQ = ⊥ := by
      rw [hs, eq_bot_iff]
      rintro _ ⟨y, hy, rfl⟩
      rw [Submodule.mem_bot, Submodule.mkQ_apply, Submodule.Quotient.mk_eq_zero]
      exact hR.monoB s t hst hy
    rw [h0]
    exact finrank_bot _ _
  · have hzero : ∀ i j, (⟨Hb.dim, List.replicate Hb.dim (List.replicate Hb.dim 0)⟩ : Mat).z E.p i j = 0 := by
      intro i j
      unfold Mat.z Mat.get
      dsimp only
      rw [List.getD_eq_getElem?_getD (l := List.replicate _ _), List.getElem?_replicate]
      split
      · rw [Option.getD_some, List.getD_eq_getElem?_getD, List.getElem?_replicate]
        split <;> simp
      · simp
    have hin : ExtLevels rnd E.p E.maxR Hb.barcode
        ⟨Hb.dim, List.replicate Hb.dim (List.replicate Hb.dim 0)⟩ := by
      refine ⟨h.prime, hne, fun b hb => ⟨F.gens.wf b hb, F.gens.le_maxR h (by omega) he b hb⟩, ?_,
        F.liftH.dim, ?_, ?_, fun i j bi bj _ _ hc => absurd (hzero i j) hc⟩
      · intro a ha b hb
        obtain ⟨a', ha', e1⟩ := F.birth a ha
        obtain ⟨b', hb', e2⟩ := F.birth b hb
        exact hround (e + 1) he 0 0 a' ha' b' hb' _ (Or.inl e1) _ (Or.inl e2)
      · rw [← F.liftH.dim]; simp [Mat.ncols]
      · intro c hc
        rw [List.eq_of_mem_replicate hc, List.length_replicate]
        exact F.liftH.dim
    obtain ⟨g2, g3, g4⟩ := C62_levels_partial hin (hRes _ hzero) him
    exact Or.inr ⟨im, rfl, g2, g3, g4⟩

end

end Permaviss
