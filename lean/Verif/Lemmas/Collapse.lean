import Verif.Lemmas.PlaneMid
import Verif.Lemmas.PlaneRes
import Verif.Lemmas.CechRows
import Verif.Lemmas.MPHAll

/-!
# A second page with one entry in a total degree

When all the entries of the second page in total degree `e` are zero but the first one, and so are the entries
of total degree `e + 1` from the third column on, the homology of degree `e` of the whole complex is that
first entry.
-/

namespace Permaviss

open Finset

attribute [-instance] instMulZeroClassOfSemiring

section

variable {α : Type} [LinearOrder α] [Zero α] {rnd : α → α} {E : SSEnv α} {ρ : List ℕ → α}

/-- A family of chains on column `n` which is present at radius `t`. -/
def SSEnv.FamAt (E : SSEnv α) (ρ : List ℕ → α) (n deg : ℕ) (t : α) (a : ℕ → ℕ → ZMod E.p) : Prop :=
  ∀ l < E.spx n, E.PresentAt ρ n l deg (a l) t

/-- Column `n + 1` in degree `q`: families of cycles whose Čech differential is a family of boundaries are
boundaries up to Čech differentials. -/
def SSEnv.ColAcyclic (E : SSEnv α) (ρ : List ℕ → α) (n q : ℕ) (t : α) : Prop :=
  ∀ D D', E.nerveDiff[n]? = some D → E.nerveDiff[n + 1]? = some D' → ∀ a b, E.FamAt ρ (n + 1) q t a →
    E.FamAt ρ n (q + 1) t b → (∀ l < E.spx (n + 1), E.bd (n + 1) l q (a l) = 0) →
    (∀ k < E.spx n, E.cechSum D n q k a = E.bd n k (q + 1) (b k)) →
    ∃ g w, E.FamAt ρ (n + 2) q t g ∧ E.FamAt ρ (n + 1) (q + 1) t w ∧
      ∀ l < E.spx (n + 1), a l = E.cechSum D' (n + 1) q l g + E.bd (n + 1) l (q + 1) (w l)

theorem cechSum_empty {D : Mat} {n deg k : ℕ} (c : ℕ → ℕ → ZMod E.p) (h0 : E.spx (n + 1) = 0) :
    E.cechSum D n deg k c = 0 := by
  unfold SSEnv.cechSum
  rw [h0, Finset.sum_range_zero]

/-- The Čech differential is a differential, also at the end. -/
theorem cechSum_cechSum' (h : SSOK rnd E ρ) (hlast : E.spx E.columns.length = 0) {n deg : ℕ} {D D' : Mat}
    (hD : E.nerveDiff[n]? = some D) (hD' : E.nerveDiff[n + 1]? = some D') (hn : n + 1 < E.columns.length)
    (hdeg : deg ≤ E.rows) {k : ℕ} (hk : k < E.spx n) (c : ℕ → ℕ → ZMod E.p) :
    E.cechSum D n deg k (fun l => E.cechSum D' (n + 1) deg l c) = 0 := by
  by_cases h2 : n + 2 < E.columns.length
  · exact cechSum_cechSum h hD hD' h2 hdeg hk c
  · have e : E.spx (n + 1 + 1) = 0 := by rw [show n + 1 + 1 = E.columns.length by omega]; exact hlast
    refine (cechSum_congr fun l _ => ?_).trans cechSum_zero
    exact cechSum_empty c e

/-- A family whose boundary is a Čech differential of a family which splits can be changed into a family of
cycles. -/
theorem clean (h : SSOK rnd E ρ) (hlast : E.spx E.columns.length = 0) {m q : ℕ} (hm : m + 1 < E.columns.length)
    (hq : q < E.rows) {D D' : Mat} (hD : E.nerveDiff[m]? = some D) (hD' : E.nerveDiff[m + 1]? = some D')
    {a a' g w : ℕ → ℕ → ZMod E.p} (ha : ∀ k < E.spx m, E.bd m k (q + 1) (a k) = E.cechSum D m q k a')
    (hs : ∀ l < E.spx (m + 1), a' l = E.cechSum D' (m + 1) q l g + E.bd (m + 1) l (q + 1) (w l)) :
    ∀ k < E.spx m, E.bd m k (q + 1) (a k + E.cechSum D m (q + 1) k w) = 0 := by
  intro k hk
  have e1 : E.cechSum D m q k a' = - E.bd m k (q + 1) (E.cechSum D m (q + 1) k w) := by
    rw [cechSum_congr hs, cechSum_add, cechSum_cechSum' h hlast hD hD' hm (by omega) hk, zero_add,
      cechSum_bd h hD hm hq hk]
  rw [map_add, ha k hk, e1, neg_add_cancel]

/-- Families whose Čech differential is a family of boundaries, when all the later entries of the same total
degree are zero. -/
theorem fam_split (h : SSOK rnd E ρ) {N : ℕ} {S : ℕ → List (List ℕ)} {adj : ℕ → ℕ → Prop}
    (H : NerveOK E N S adj) {t : α} : ∀ (q n : ℕ), n + 1 < E.columns.length → q < E.rows →
    (∀ i ≤ q, n + i + 1 < E.columns.length → E.ColAcyclic ρ (n + i) (q - i) t) →
    ∀ D D', E.nerveDiff[n]? = some D → E.nerveDiff[n + 1]? = some D' → ∀ a b, E.FamAt ρ (n + 1) q t a →
    E.FamAt ρ n (q + 1) t b → (∀ k < E.spx n, E.cechSum D n q k a = E.bd n k (q + 1) (b k)) →
    ∃ g w, E.FamAt ρ (n + 2) q t g ∧ E.FamAt ρ (n + 1) (q + 1) t w ∧
      ∀ l < E.spx (n + 1), a l = E.cechSum D' (n + 1) q l g + E.bd (n + 1) l (q + 1) (w l) := by
  intro q
  induction q with
  | zero =>
    intro n hn hq hac D D' hD hD' a b ha hb he
    exact hac 0 le_rfl hn D D' hD hD' a b ha hb (fun l _ => by rw [bd_zero]; rfl) he
  | succ q ih =>
    intro n hn hq hac D D' hD hD' a b ha hb he
    -- the boundary is a Čech differential
    obtain ⟨a', ha', hd'⟩ := cech_exact_succ h H (deg := q) hn (by omega) hD hD' (t := t)
      (c := fun l => E.bd (n + 1) l (q + 1) (a l))
      (fun l hl => (present_bd h hn (by omega) hl (ha l hl)).1) fun k hk => by
      rw [cechSum_bd h hD hn (by omega) hk, he k hk, (present_bd h (by omega) hq hk (hb k hk)).2, neg_zero]
    -- which splits
    obtain ⟨w, hw, hcyc⟩ : ∃ w, E.FamAt ρ (n + 2) (q + 1) t w ∧
        ∀ l < E.spx (n + 1), E.bd (n + 1) l (q + 1) (a l + E.cechSum D' (n + 1) (q + 1) l w) = 0 := by
      by_cases h2 : n + 2 < E.columns.length
      · obtain ⟨D'', hD''⟩ := h.hasDiff (n + 2) h2
        obtain ⟨g, w, hg, hw, hs⟩ := ih (n + 1) h2 (by omega) (fun i hi hlt => by
            have := hac (i + 1) (by omega) (by omega)
            rwa [show n + (i + 1) = n + 1 + i by omega, show q + 1 - (i + 1) = q - i by omega] at this)
          D' D'' hD' hD'' a' a ha' ha fun l hl => (hd' l hl).symm
        exact ⟨w, hw, clean h H.last h2 (by omega) hD' hD'' hd' hs⟩
      · have e : E.spx (n + 1 + 1) = 0 := by rw [show n + 1 + 1 = E.columns.length by omega]; exact H.last
        refine ⟨fun _ => 0, fun l hl => by rw [show n + 2 = n + 1 + 1 from rfl, e] at hl; omega,
          fun l hl => ?_⟩
        rw [cechSum_zero, add_zero, hd' l hl, cechSum_empty _ e]
    obtain ⟨g, w2, hg, hw2, hs⟩ := hac 0 (by omega) hn D D' hD hD'
      (fun l => a l + E.cechSum D' (n + 1) (q + 1) l w) b
      (fun l hl => PresentAt.add (ha l hl) (PresentAt.cechSum hw)) hb hcyc fun k hk => by
      rw [Nat.sub_zero, Nat.add_zero, cechSum_add, cechSum_cechSum' h H.last hD hD' hn (by omega) hk, add_zero, he k hk]
    refine ⟨fun m => g m - w m, w2, fun m hm => PresentAt.sub (hg m hm) (hw m hm), hw2, fun l hl => ?_⟩
    have := hs l hl
    rw [cechSum_sub, sub_add_eq_add_sub, eq_sub_iff_add_eq]
    exact this

/-- Where nothing is stored on the second page the columns are acyclic. -/
theorem colAcyclic_of_empty (h : SSOK rnd E ρ) {q : ℕ} (hq : q < E.rows) {n : ℕ}
    (hn : n + 1 < E.columns.length) {base : List (Basis α)} {diffs : List Mat}
    (R : RowInput rnd E q base diffs) {H : Basis α} (hH : HomAt E.p (⟨0, []⟩ :: diffs) base (n + 1) H)
    (h0 : H.barcode = []) {t : α} (ht : t < E.maxR) : E.ColAcyclic ρ n q t := by
  have hF := Fact.mk h.prime
  intro D D' hD hD' a b ha hb hcyc he
  have hM := R.diff n hn
  set M := diffAt (⟨0, []⟩ :: diffs) (n + 1) with hMe
  obtain ⟨β, w, hβ, hw⟩ := exists_fam h hn hq ht fun l hl => ⟨ha l hl, hcyc l hl⟩
  obtain ⟨g1, w', hw'⟩ := fam_first h hD hn hq hM hβ
  have hcf : ∀ k < E.spx n, E.cechSum D n q k (fun l => E.fam (n + 1) q l β) =
      E.bd n k (q + 1) (b k) - E.bd n k (q + 1) (E.cechSum D n (q + 1) k w) := by
    intro k hk
    rw [← he k hk, sub_eq_neg_add, ← cechSum_bd h hD hn hq hk, ← cechSum_add]
    exact (cechSum_congr fun l hl => (hw l hl).2).symm
  have hdead : barRestr E.p (E.firstBars q n) t (M.mulVecL E.p β) = 0 := by
    refine fam_dead h (by omega) hq ht g1 (w := fun k => w' k + (b k - E.cechSum D n (q + 1) k w))
      fun k hk => ⟨?_, ?_⟩
    · exact PresentAt.add (hw' k hk).1 (PresentAt.sub (hb k hk) (PresentAt.cechSum fun l hl => (hw l hl).1))
    · rw [← (hw' k hk).2, map_add, map_sub, hcf k hk]
  have hker : barRestr E.p (E.firstBars q (n + 1)) t β ∈
      kerAt E.p (E.firstBars q (n + 1)) (E.firstBars q n) M t := by
    refine ⟨⟨β, rfl⟩, ?_⟩
    rw [SetLike.mem_coe, LinearMap.mem_ker]
    unfold morAt
    rw [LinearMap.comp_apply, LinearMap.comp_apply]
    rw [show barRestr E.p (E.firstBars q (n + 1)) t (barRestr E.p (E.firstBars q (n + 1)) t β) =
      barRestr E.p (E.firstBars q (n + 1)) t β from restr_restr _, first_dead h hn hq hM hβ, hdead]
  have hker' : barRestr E.p (E.firstBars q (n + 1)) t β ∈ modCycles E.p (⟨0, []⟩ :: diffs) base (n + 1) t := by
    change _ ∈ kerAt E.p (barsAt base (n + 1)) (barsAt base n) M t
    rw [R.bars, if_pos hn, R.bars, if_pos (by omega)]
    exact hker
  have hbd := hH.acyclic (R.input.complex (n + 1)) h0 t hker'
  rw [R.bounds hn] at hbd
  by_cases h2 : n + 2 < E.columns.length
  · rw [rowBounds_eq h2 (R.diff (n + 1) h2)] at hbd
    obtain ⟨κ, w2, hκ, hw2⟩ := bounds_fam h hD' h2 hq (R.diff (n + 1) h2) ht hβ hbd
    refine ⟨fun m => E.fam (n + 2) q m κ, fun l => w2 l - w l,
      fun m hm => (fam_cycle h h2 hq hκ hm).1, fun l hl => PresentAt.sub (hw2 l hl).1 (hw l hl).1,
      fun l hl => ?_⟩
    have e1 := (hw l hl).2
    rw [(hw2 l hl).2] at e1
    rw [map_sub, ← add_sub_assoc, eq_sub_iff_add_eq, add_comm]
    exact e1
  · rw [rowBounds_last h2] at hbd
    obtain ⟨w2, hw2⟩ := dead_fam h hn hq ht hβ ((Submodule.mem_bot _).1 hbd)
    refine ⟨fun _ => 0, fun l => w2 l - w l, fun m hm i hi => absurd rfl hi,
      fun l hl => PresentAt.sub (hw2 l hl).1 (hw l hl).1, fun l hl => ?_⟩
    have e1 := (hw l hl).2
    rw [(hw2 l hl).2] at e1
    rw [cechSum_zero, zero_add, map_sub, eq_sub_iff_add_eq, add_comm]
    exact e1

/-- Cycles of the whole complex come from cycles on the pieces. -/
theorem collapse_span (h : SSOK rnd E ρ) {N N' : ℕ} {S : ℕ → List (List ℕ)} {adj : ℕ → ℕ → Prop} {D : Mat}
    (C : CoverOK E ρ N D) (H : NerveOK E N' S adj) {e : ℕ} (he : e + 1 < E.rows) {t : α} (ht : t < E.maxR)
    (hac : ∀ i ≤ e, i + 1 < E.columns.length → E.ColAcyclic ρ i (e - i) t)
    {z : List ℕ →₀ ZMod E.p} (hz : z ∈ E.ZG ρ N (e + 1) t) :
    ∃ x, E.BornBy 0 (e + 1) x t ∧ z - E.whole (e + 1) x ∈ E.BG ρ N (e + 1) t := by
  have hc0 : 0 < E.columns.length := by have := C.cols; omega
  have hc1 : 0 + 1 < E.columns.length := C.cols
  obtain ⟨hz1, hz2⟩ := hz
  obtain ⟨f, hf, rfl⟩ := exists_local C he.le ht hz1
  rw [SetLike.mem_coe, LinearMap.mem_ker, glSum_closed_iff h C (by omega)] at hz2
  obtain ⟨q, hq1, hq2⟩ := cech_exact h C (deg := e) (by omega) (t := t)
    (fun k hk => (present_bd h hc0 (by omega) hk (hf k hk)).1) (by rw [← glSum_eq]; exact hz2)
  obtain ⟨D', hD'⟩ := h.hasDiff 1 C.cols
  obtain ⟨g, w, hg, hw, hs⟩ := fam_split h H e 0 hc1 (by omega)
    (fun i hi hlt => by have := hac i hi (by omega); rwa [Nat.zero_add]) D D' C.diff hD' q f hq1 hf
    fun k hk => (hq2 k hk).symm
  have hcyc := clean h H.last hc1 (by omega) C.diff hD' hq2 hs
  obtain ⟨x, w0, hx, hw0⟩ := exists_fam h hc0 he ht fun k hk =>
    ⟨PresentAt.add (hf k hk) (PresentAt.cechSum (D := D) (k := k) (n := 0) hw), hcyc k hk⟩
  refine ⟨x, hx, ?_⟩
  have e1 : E.glSum (e + 1) (fun k => E.bd 0 k (e + 1 + 1) (w0 k)) + E.glSum (e + 1) f = E.whole (e + 1) x := by
    have e2 := glSum_cech h C (deg := e + 1) he.le w
    rw [← add_zero (E.glSum (e + 1) f), ← e2, ← glSum_add', ← glSum_add', whole_eq]
    exact glSum_congr fun k hk => (hw0 k hk).2
  rw [← e1, sub_add_cancel_right]
  exact Submodule.neg_mem _ (glSum_bd_mem h C he fun k hk => (hw0 k hk).1)

/-- Classes on the pieces which become zero in the whole complex come from the second column. -/
theorem collapse_bounds (h : SSOK rnd E ρ) {N N' : ℕ} {S : ℕ → List (List ℕ)} {adj : ℕ → ℕ → Prop} {D M : Mat}
    (C : CoverOK E ρ N D) (H : NerveOK E N' S adj) {e : ℕ} (he : e + 1 < E.rows)
    (hM : firstDifferential E 0 (e + 1) = .ok M) {t : α} (ht : t < E.maxR)
    (hac : ∀ i ≤ e, i + 2 < E.columns.length → E.ColAcyclic ρ (i + 1) (e - i) t)
    {x : ℕ → ZMod E.p} (hx : E.BornBy 0 (e + 1) x t) (hb : E.whole (e + 1) x ∈ E.BG ρ N (e + 1) t) :
    barRestr E.p (E.firstBars (e + 1) 0) t x ∈
      imAt E.p (E.firstBars (e + 1) 1) (E.firstBars (e + 1) 0) M t := by
  have hc0 : 0 < E.columns.length := by have := C.cols; omega
  have hc1 : 0 + 1 < E.columns.length := C.cols
  obtain ⟨g0, hg0, hsum⟩ := mem_BG h C he ht hb
  rw [whole_eq, ← sub_eq_zero, ← glSum_sub'] at hsum
  obtain ⟨a, ha, hac0⟩ := cech_exact h C he.le (t := t)
    (c := fun k => E.fam 0 (e + 1) k x - E.bd 0 k (e + 1 + 1) (g0 k))
    (fun k hk => PresentAt.sub (fam_cycle h hc0 he hx hk).1 (present_bd h hc0 he hk (hg0 k hk)).1)
    (by rw [← glSum_eq]; exact hsum)
  obtain ⟨D', hD'⟩ := h.hasDiff 1 C.cols
  obtain ⟨a', ha', hd'⟩ := cech_exact_succ h H (n := 0) (deg := e) hc1 (by omega) C.diff hD' (t := t)
    (c := fun l => E.bd 1 l (e + 1) (a l))
    (fun l hl => (present_bd h hc1 (by omega) hl (ha l hl)).1) fun k hk => by
    rw [cechSum_bd h C.diff hc1 (by omega) hk, ← hac0 k hk, map_sub, (fam_cycle h hc0 he hx hk).2,
      (present_bd h hc0 he hk (hg0 k hk)).2, sub_zero, neg_zero]
  obtain ⟨w, hw, hcyc⟩ : ∃ w, E.FamAt ρ 2 (e + 1) t w ∧
      ∀ l < E.spx 1, E.bd 1 l (e + 1) (a l + E.cechSum D' 1 (e + 1) l w) = 0 := by
    by_cases h2 : 1 + 1 < E.columns.length
    · obtain ⟨D'', hD''⟩ := h.hasDiff 2 h2
      obtain ⟨g, w, hg, hw, hs⟩ := fam_split h H e 1 h2 (by omega)
        (fun i hi hlt => by have := hac i hi (by omega); rwa [show 1 + i = i + 1 by omega])
        D' D'' hD' hD'' a' a ha' ha fun l hl => (hd' l hl).symm
      exact ⟨w, hw, clean h H.last h2 (by omega) hD' hD'' hd' hs⟩
    · have e0 : E.spx (1 + 1) = 0 := by rw [show 1 + 1 = E.columns.length by omega]; exact H.last
      refine ⟨fun _ => 0, fun l hl => by rw [show 2 = 1 + 1 from rfl, e0] at hl; omega, fun l hl => ?_⟩
      rw [cechSum_zero, add_zero]
      exact (hd' l hl).trans (cechSum_empty _ e0)
  obtain ⟨κ, w3, hκ, hw3⟩ := exists_fam h C.cols he ht fun l hl =>
    ⟨PresentAt.add (ha l hl) (PresentAt.cechSum (D := D') (k := l) (n := 1) hw), hcyc l hl⟩
  refine fam_bounds h C.diff hc1 he hM ht hx hκ
    (w := fun k => g0 k + E.cechSum D 0 (e + 1 + 1) k w3) fun k hk =>
    ⟨PresentAt.add (hg0 k hk) (PresentAt.cechSum fun l hl => (hw3 l hl).1), ?_⟩
  have e1 : E.cechSum D 0 (e + 1) k (fun l => E.fam (0 + 1) (e + 1) l κ) =
      - E.bd 0 k (e + 1 + 1) (E.cechSum D 0 (e + 1 + 1) k w3) + E.cechSum D 0 (e + 1) k a := by
    rw [← cechSum_bd h C.diff hc1 he hk, ← add_zero (E.cechSum D 0 (e + 1) k a),
      ← cechSum_cechSum' h H.last C.diff hD' hc1 he.le hk w, ← cechSum_add, ← cechSum_add]
    exact cechSum_congr fun l hl => (hw3 l hl).2.symm
  rw [e1, ← hac0 k hk, map_add]
  abel

end

end Permaviss
