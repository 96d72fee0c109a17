import Verif.Lemmas.CechExact
import Verif.Lemmas.PageTwo

/-!
# Combinations of classes of a column of the first page as families of local chains
-/

namespace Permaviss

open Finset

attribute [-instance] instMulZeroClassOfSemiring

section

variable {α : Type} [LinearOrder α] [Zero α] {rnd : α → α} {E : SSEnv α} {ρ : List ℕ → α}

/-- The representative of class `a` of piece `k`. -/
def SSEnv.rep (E : SSEnv α) (n deg k a : ℕ) : ℕ → ZMod E.p :=
  match E.hom0 n k deg with
  | .ok B => B.chain E.p a
  | .error _ => 0

/-- The part on piece `k` of a combination of classes of column `n`. -/
def SSEnv.fam (E : SSEnv α) (n deg k : ℕ) : (ℕ → ZMod E.p) →ₗ[ZMod E.p] (ℕ → ZMod E.p) where
  toFun x := ∑ a ∈ range (E.classes n deg k), x (E.classStart n deg k + a) • E.rep n deg k a
  map_add' x y := by simp only [Pi.add_apply, add_smul, Finset.sum_add_distrib]
  map_smul' r x := by
    rw [RingHom.id_apply, Finset.smul_sum]
    exact Finset.sum_congr rfl fun a _ => by rw [Pi.smul_apply, smul_eq_mul, mul_smul]

theorem fam_eq {n deg k : ℕ} {hom : Basis α} (hh : E.hom0 n k deg = .ok hom) (x : ℕ → ZMod E.p) :
    E.fam n deg k x = ∑ a ∈ range hom.dim, x (E.classStart n deg k + a) • hom.chain E.p a := by
  change ∑ a ∈ range (E.classes n deg k), _ = _
  unfold SSEnv.classes SSEnv.rep
  rw [hh]

/-- Combinations of classes of column `n` born by `t`. -/
def SSEnv.BornBy (E : SSEnv α) (n deg : ℕ) (x : ℕ → ZMod E.p) (t : α) : Prop :=
  ∀ i, x i ≠ 0 → ∃ b, (E.firstBars deg n)[i]? = some b ∧ b.1 ≤ t

theorem BornBy.mono {n deg : ℕ} {x : ℕ → ZMod E.p} {s t : α} (hst : s ≤ t) (h : E.BornBy n deg x s) :
    E.BornBy n deg x t := fun i hi => by
  obtain ⟨b, h1, h2⟩ := h i hi
  exact ⟨b, h1, h2.trans hst⟩

theorem BornBy.sub {n deg : ℕ} {x y : ℕ → ZMod E.p} {t : α} (hx : E.BornBy n deg x t)
    (hy : E.BornBy n deg y t) : E.BornBy n deg (x - y) t := by
  intro i hi
  by_cases h0 : x i = 0
  · refine hy i fun h1 => hi ?_
    rw [Pi.sub_apply, h0, h1, sub_zero]
  · exact hx i h0

theorem BornBy.restr {n deg : ℕ} {x : ℕ → ZMod E.p} {t : α} (S : ℕ → Prop) (hx : E.BornBy n deg x t) :
    E.BornBy n deg (restr S x) t := by
  intro i hi
  refine hx i fun h0 => hi ?_
  by_cases hS : S i
  · rw [restr_apply_pos hS, h0]
  · rw [restr_apply_neg hS]

theorem BornBy.of_barModule {n deg : ℕ} {x : ℕ → ZMod E.p} {t : α}
    (hx : x ∈ barModule E.p (E.firstBars deg n) t) : E.BornBy n deg x t := by
  obtain ⟨y, rfl⟩ := hx
  intro i hi
  by_cases hS : AliveBar (E.firstBars deg n) i t
  · obtain ⟨b, h1, h2, -⟩ := hS
    exact ⟨b, h1, h2⟩
  · exact absurd (restr_apply_neg hS) hi

theorem BornBy.get (h : SSOK rnd E ρ) {n deg : ℕ} (hn : n < E.columns.length) (hdeg : deg < E.rows)
    {x : ℕ → ZMod E.p} {t : α} (hx : E.BornBy n deg x t) {k : ℕ} (hk : k < E.spx n) {hom : Basis α}
    (hh : E.hom0 n k deg = .ok hom) {a : ℕ} (ha : a < hom.dim)
    (hne : x (E.classStart n deg k + a) ≠ 0) : ∃ b, hom.barcode[a]? = some b ∧ b.1 ≤ t := by
  obtain ⟨b, h1, h2⟩ := hx _ hne
  rw [h.firstBars_get hn hdeg hk hh ha] at h1
  exact ⟨b, h1, h2⟩

theorem SSOK.hom0_ok (h : SSOK rnd E ρ) {n deg : ℕ} (hn : n < E.columns.length) (hdeg : deg < E.rows)
    {k : ℕ} (hk : k < E.spx n) : ∃ hom, E.hom0 n k deg = .ok hom ∧ hom.barcode.length = hom.dim ∧
      E.classes n deg k = hom.dim := by
  obtain ⟨o, pts, v, im, hom, L⟩ := h.liftData hn hk hdeg.le
  exact ⟨hom, L.hom0, L.hom_ok.bars, L.classes_eq⟩

/-- The family is made of cycles present at `t`. -/
theorem fam_cycle (h : SSOK rnd E ρ) {n deg : ℕ} (hn : n < E.columns.length) (hdeg : deg < E.rows)
    {x : ℕ → ZMod E.p} {t : α} (hx : E.BornBy n deg x t) {k : ℕ} (hk : k < E.spx n) :
    E.PresentAt ρ n k deg (E.fam n deg k x) t ∧ E.bd n k deg (E.fam n deg k x) = 0 := by
  obtain ⟨hom, hh, hl, -⟩ := h.hom0_ok hn hdeg hk
  rw [fam_eq hh]
  constructor
  · refine PresentAt.sum _ _ fun a ha => ?_
    have ha' := mem_range.1 ha
    by_cases h0 : x (E.classStart n deg k + a) = 0
    · rw [h0, zero_smul]; exact fun i hi => absurd rfl hi
    · obtain ⟨b, hb, hbt⟩ := BornBy.get h hn hdeg hx hk hh ha' h0
      exact PresentAt.smul _ (PresentAt.mono hbt (h.rep_cycle hn hdeg hk hh hb).1.2)
  · rw [map_sum]
    refine Finset.sum_eq_zero fun a ha => ?_
    have ha' := mem_range.1 ha
    rw [map_smul]
    obtain ⟨o, ho, hz⟩ := (h.rep_cycle hn hdeg hk hh
      (List.getElem?_eq_getElem (show a < hom.barcode.length by omega))).1.1
    rw [bd_eq ho, hz, smul_zero]

/-- A vector with given coefficients on the classes. -/
theorem exists_coeffs (n deg m : ℕ) (β : ℕ → ℕ → ZMod E.p) :
    ∃ x : ℕ → ZMod E.p, (∀ k < m, ∀ a < E.classes n deg k, x (E.classStart n deg k + a) = β k a) ∧
      ∀ i, x i ≠ 0 → ∃ k < m, ∃ a < E.classes n deg k, i = E.classStart n deg k + a ∧ x i = β k a := by
  classical
  let x : ℕ → ZMod E.p := fun i =>
    if hi : ∃ ka : ℕ × ℕ, ka.1 < m ∧ ka.2 < E.classes n deg ka.1 ∧ i = E.classStart n deg ka.1 + ka.2
    then β hi.choose.1 hi.choose.2 else 0
  have key : ∀ k < m, ∀ a < E.classes n deg k, x (E.classStart n deg k + a) = β k a := by
    intro k hk a ha
    have hi : ∃ ka : ℕ × ℕ, ka.1 < m ∧ ka.2 < E.classes n deg ka.1 ∧
      E.classStart n deg k + a = E.classStart n deg ka.1 + ka.2 := ⟨(k, a), hk, ha, rfl⟩
    simp only [x]
    rw [dif_pos hi]
    obtain ⟨h1, h2, h3⟩ := hi.choose_spec
    obtain ⟨e1, e2⟩ := class_index_unique ha h2 h3
    rw [← e1, ← e2]
  refine ⟨x, key, fun i hi => ?_⟩
  by_cases hex : ∃ ka : ℕ × ℕ, ka.1 < m ∧ ka.2 < E.classes n deg ka.1 ∧ i = E.classStart n deg ka.1 + ka.2
  · obtain ⟨⟨k, a⟩, h1, h2, rfl⟩ := hex
    exact ⟨k, h1, a, h2, rfl, key k h1 a h2⟩
  · exact absurd (dif_neg hex) hi

/-- Families of cycles are homologous to combinations of classes. -/
theorem exists_fam (h : SSOK rnd E ρ) {n deg : ℕ} (hn : n < E.columns.length) (hdeg : deg < E.rows)
    {z : ℕ → ℕ → ZMod E.p} {t : α} (ht : t < E.maxR)
    (hz : ∀ k < E.spx n, E.PresentAt ρ n k deg (z k) t ∧ E.bd n k deg (z k) = 0) :
    ∃ (x : ℕ → ZMod E.p) (w : ℕ → ℕ → ZMod E.p), E.BornBy n deg x t ∧ ∀ k < E.spx n, E.PresentAt ρ n k (deg + 1) (w k) t ∧
      E.bd n k (deg + 1) (w k) + z k = E.fam n deg k x := by
  have hex : ∀ k, ∃ w β, k < E.spx n → E.ZigZag ρ n deg k (z k) t w β := by
    intro k
    by_cases hk : k < E.spx n
    · obtain ⟨o, pts, ho, -⟩ := h.piece n hn k hk
      obtain ⟨w, β, hw⟩ := exists_zigzag h hn hk hdeg ht (z := z k)
        ⟨⟨o, ho, by rw [← bd_eq ho]; exact (hz k hk).2⟩, (hz k hk).1⟩
      exact ⟨w, β, fun _ => hw⟩
    · exact ⟨0, 0, fun hc => absurd hc hk⟩
  choose w β hw using hex
  obtain ⟨x, hx1, hx2⟩ := exists_coeffs (E := E) n deg (E.spx n) β
  refine ⟨x, w, ?_, ?_⟩
  · intro i hi
    obtain ⟨k, hk, a, ha, rfl, e⟩ := hx2 i hi
    obtain ⟨hom, hh, hl, hc⟩ := h.hom0_ok hn hdeg hk
    obtain ⟨o, hom', ho, hh', -, hb⟩ := (hw k hk).closes
    obtain rfl : hom = hom' := Except.ok.inj (hh.symm.trans hh')
    obtain ⟨b, hb, hbt⟩ := hb a (by omega) (e ▸ hi)
    exact ⟨b, by rw [h.firstBars_get hn hdeg hk hh (by omega)]; exact hb, hbt⟩
  · intro k hk
    obtain ⟨hom, hh, hl, hc⟩ := h.hom0_ok hn hdeg hk
    obtain ⟨o, hom', ho, hh', he, -⟩ := (hw k hk).closes
    obtain rfl : hom = hom' := Except.ok.inj (hh.symm.trans hh')
    refine ⟨(hw k hk).present, ?_⟩
    rw [bd_eq ho, he, fam_eq hh]
    refine Finset.sum_congr rfl fun a ha => ?_
    rw [hx1 k hk a (by have := mem_range.1 ha; omega)]

/-- If the family of a combination is a boundary at `t`, its classes are dead at `t`. -/
theorem fam_dead (h : SSOK rnd E ρ) {n deg : ℕ} (hn : n < E.columns.length) (hdeg : deg < E.rows)
    {x : ℕ → ZMod E.p} {t : α} (ht : t < E.maxR) (hx : E.BornBy n deg x t) {w : ℕ → ℕ → ZMod E.p}
    (hw : ∀ k < E.spx n, E.PresentAt ρ n k (deg + 1) (w k) t ∧
      E.fam n deg k x = E.bd n k (deg + 1) (w k)) :
    barRestr E.p (E.firstBars deg n) t x = 0 := by
  funext i
  by_cases hS : AliveBar (E.firstBars deg n) i t
  swap
  · exact restr_apply_neg hS
  refine (restr_apply_pos hS).trans ?_
  by_contra hne
  obtain ⟨b, hb, hb1, hb2⟩ := hS
  obtain ⟨k, hk, hom, a, hh, ha, hba, rfl⟩ := h.firstBars_class hn hdeg hb
  obtain ⟨o, pts, v, im, hom', L⟩ := h.liftData hn hk hdeg.le
  obtain rfl : hom = hom' := Except.ok.inj (hh.symm.trans L.hom0)
  obtain ⟨b', hb', -, hd⟩ := L.dead h.prime hdeg ht
    (x := fun a => x (E.classStart n deg k + a))
    (fun a ha hne => BornBy.get h hn hdeg hx hk hh ha hne) (hw k hk).1
    (by rw [← fam_eq hh, (hw k hk).2, bd_eq L.piece]) a ha hne
  rw [hba] at hb'
  rw [Option.some.inj hb'] at hb2
  exact absurd hb2 (not_lt.2 hd)

/-- A combination of dead classes is a boundary. -/
theorem dead_fam (h : SSOK rnd E ρ) {n deg : ℕ} (hn : n < E.columns.length) (hdeg : deg < E.rows)
    {x : ℕ → ZMod E.p} {t : α} (ht : t < E.maxR) (hx : E.BornBy n deg x t)
    (hdead : barRestr E.p (E.firstBars deg n) t x = 0) :
    ∃ w : ℕ → ℕ → ZMod E.p, ∀ k < E.spx n, E.PresentAt ρ n k (deg + 1) (w k) t ∧
      E.fam n deg k x = E.bd n k (deg + 1) (w k) := by
  have hex : ∀ k, ∃ w, k < E.spx n → E.PresentAt ρ n k (deg + 1) w t ∧
      E.fam n deg k x = E.bd n k (deg + 1) w := by
    intro k
    by_cases hk : k < E.spx n
    swap
    · exact ⟨0, fun hc => absurd hc hk⟩
    obtain ⟨o, pts, v, im, hom, L⟩ := h.liftData hn hk hdeg.le
    have hlev : deg + 1 ≤ o.cpx.simplices.length := by have := L.ok.levels; omega
    have hl := L.hom_ok.bars
    have : ∀ a, ∃ w, a < hom.dim → E.PresentAt ρ n k (deg + 1) w t ∧
        x (E.classStart n deg k + a) • hom.chain E.p a = bdry E.p o.diff (deg + 1) w := by
      intro a
      by_cases ha : a < hom.dim
      swap
      · exact ⟨0, fun hc => absurd hc ha⟩
      by_cases h0 : x (E.classStart n deg k + a) = 0
      · exact ⟨0, fun _ => ⟨fun i hi => absurd rfl hi, by rw [h0, zero_smul, map_zero]⟩⟩
      obtain ⟨b, hb, hbt⟩ := BornBy.get h hn hdeg hx hk L.hom0 ha h0
      have hb2 : b.2 ≤ t := by
        by_contra hc
        apply h0
        have := congrFun hdead (E.classStart n deg k + a)
        exact (restr_apply_pos (K := ZMod E.p) (x := x) ⟨b, by rw [h.firstBars_get hn hdeg hk L.hom0 ha]; exact hb, hbt,
          not_le.1 hc⟩).symm.trans this
      obtain ⟨w, hw, e⟩ := (C22_finite_bars_die_as_boundaries h.prime rnd L.ok.filt o.ph L.ok.run deg hom
        L.hom_get a b hb).1 (hb2.trans_lt ht)
      refine ⟨x (E.classStart n deg k + a) • w, fun _ => ⟨?_, ?_⟩⟩
      · exact PresentAt.smul _ (PresentAt.mono hb2 ((L.present_iff hlev w b.2).2 hw))
      · rw [map_smul, e]
    choose w hw using this
    refine ⟨∑ a ∈ range hom.dim, w a, fun _ => ⟨PresentAt.sum _ _ fun a ha => (hw a (mem_range.1 ha)).1, ?_⟩⟩
    rw [fam_eq L.hom0, bd_eq L.piece, map_sum]
    exact Finset.sum_congr rfl fun a ha => (hw a (mem_range.1 ha)).2
  choose w hw using hex
  exact ⟨w, hw⟩

theorem mulVecL_apply (M : Mat) (p : ℕ) (y : ℕ → ZMod p) (i : ℕ) :
    M.mulVecL p y i = ∑ k ∈ range M.ncols, M.z p i k * y k := rfl

/-- What the first differential does on families. -/
theorem fam_first (h : SSOK rnd E ρ) {n deg : ℕ} {D : Mat} (hD : E.nerveDiff[n]? = some D)
    (hn : n + 1 < E.columns.length) (hdeg : deg < E.rows) {M : Mat}
    (hM : firstDifferential E n deg = .ok M) {y : ℕ → ZMod E.p} {t : α}
    (hy : E.BornBy (n + 1) deg y t) :
    E.BornBy n deg (M.mulVecL E.p y) t ∧
    ∃ w : ℕ → ℕ → ZMod E.p, ∀ k < E.spx n, E.PresentAt ρ n k (deg + 1) (w k) t ∧
      E.bd n k (deg + 1) (w k) + E.cechSum D n deg k (fun l => E.fam (n + 1) deg l y) =
        E.fam n deg k (M.mulVecL E.p y) := by
  obtain ⟨M', m1, m2, m3, m4, m5, mz, -⟩ := firstDifferential_spec h hD hn hdeg
  obtain rfl : M = M' := Except.ok.inj (hM.symm.trans m1)
  have hcols : M.ncols = E.classStart (n + 1) deg (E.spx (n + 1)) := by
    rw [m2, h.pageOne_eq hn hdeg]
  have hmul : ∀ i, M.mulVecL E.p y i = ∑ l ∈ range (E.spx (n + 1)), ∑ a ∈ range (E.classes (n + 1) deg l),
      M.z E.p i (E.classStart (n + 1) deg l + a) * y (E.classStart (n + 1) deg l + a) := by
    intro i
    rw [mulVecL_apply, hcols, sum_classStart]
  -- zig-zags
  have hex : ∀ l a k, ∃ w, l < E.spx (n + 1) → a < E.classes (n + 1) deg l → k < E.spx n →
      y (E.classStart (n + 1) deg l + a) ≠ 0 → ∃ b : α × α, b.1 ≤ t ∧
      E.ZigZag ρ n deg k (E.cechOf D n deg k l (E.rep (n + 1) deg l a)) b.1 w
        fun c => M.z E.p (E.classStart n deg k + c) (E.classStart (n + 1) deg l + a) := by
    intro l a k
    by_cases hc : l < E.spx (n + 1) ∧ a < E.classes (n + 1) deg l ∧ k < E.spx n ∧
      y (E.classStart (n + 1) deg l + a) ≠ 0
    · obtain ⟨hl, ha, hk, hne⟩ := hc
      obtain ⟨hom, hh, hlen, hcl⟩ := h.hom0_ok hn hdeg hl
      obtain ⟨b, hb, hbt⟩ := BornBy.get h hn hdeg hy hl hh (by omega) hne
      obtain ⟨w, hw⟩ := mz l hl hom hh a b hb k hk
      refine ⟨w, fun _ _ _ _ => ⟨b, hbt, ?_⟩⟩
      unfold SSEnv.rep
      rw [hh]
      exact hw
    · exact ⟨0, fun h1 h2 h3 h4 => absurd ⟨h1, h2, h3, h4⟩ hc⟩
  choose w hw using hex
  refine ⟨?_, fun k => ∑ l ∈ range (E.spx (n + 1)), ∑ a ∈ range (E.classes (n + 1) deg l),
    y (E.classStart (n + 1) deg l + a) • w l a k, ?_⟩
  · intro i hi
    rw [hmul] at hi
    obtain ⟨l, hl, hi⟩ := Finset.exists_ne_zero_of_sum_ne_zero hi
    obtain ⟨a, ha, hi⟩ := Finset.exists_ne_zero_of_sum_ne_zero hi
    have hl' := mem_range.1 hl
    have ha' := mem_range.1 ha
    have hy0 : y (E.classStart (n + 1) deg l + a) ≠ 0 := fun h0 => hi (by rw [h0, mul_zero])
    have hm0 : M.z E.p i (E.classStart (n + 1) deg l + a) ≠ 0 := fun h0 => hi (by rw [h0, zero_mul])
    -- `i` is the index of a class
    have hi' : i < E.classStart n deg (E.spx n) := by
      have hpos : 0 < M.ncols := by
        have := classStart_mono (E := E) (n + 1) deg (Nat.succ_le_of_lt hl')
        rw [Nat.succ_eq_add_one, classStart_succ] at this
        omega
      rw [← h.pageOne_eq (by omega) hdeg, ← m3 hpos]
      by_contra hge
      apply hm0
      unfold Mat.z Mat.get
      rw [getD_eq_zero_of_le]
      · simp
      · by_cases hj : E.classStart (n + 1) deg l + a < M.cols.length
        · rw [List_getD_eq_getElem _ _ hj, m4 _ (List.getElem_mem hj)]; omega
        · rw [List.getD_eq_getElem?_getD, List.getElem?_eq_none (by omega)]; simp
    obtain ⟨k, hk, c, hc, rfl⟩ := class_index _ _ _ _ hi'
    obtain ⟨b, hbt, hz⟩ := hw l a k hl' ha' hk hy0
    obtain ⟨o, hom, ho, hh, -, hborn⟩ := hz.closes
    obtain ⟨hom', hh', hlen, hcl⟩ := h.hom0_ok (n := n) (by omega) hdeg hk
    obtain rfl : hom = hom' := Except.ok.inj (hh.symm.trans hh')
    obtain ⟨b', hb', hbb⟩ := hborn c (by omega) hm0
    exact ⟨b', by rw [h.firstBars_get (by omega) hdeg hk hh (by omega)]; exact hb', hbb.trans hbt⟩
  · intro k hk
    obtain ⟨hom, hh, hlen, hcl⟩ := h.hom0_ok (n := n) (by omega) hdeg hk
    constructor
    · refine PresentAt.sum _ _ fun l hl => PresentAt.sum _ _ fun a ha => ?_
      by_cases h0 : y (E.classStart (n + 1) deg l + a) = 0
      · rw [h0, zero_smul]; exact fun i hi => absurd rfl hi
      · obtain ⟨b, hbt, hz⟩ := hw l a k (mem_range.1 hl) (mem_range.1 ha) hk h0
        exact PresentAt.smul _ (PresentAt.mono hbt hz.present)
    · rw [fam_eq hh]
      have e1 : E.cechSum D n deg k (fun l => E.fam (n + 1) deg l y) =
          ∑ l ∈ range (E.spx (n + 1)), ∑ a ∈ range (E.classes (n + 1) deg l),
            y (E.classStart (n + 1) deg l + a) • E.cechOf D n deg k l (E.rep (n + 1) deg l a) := by
        unfold SSEnv.cechSum
        refine Finset.sum_congr rfl fun l _ => ?_
        change E.cechL D n deg k l (∑ a ∈ range (E.classes (n + 1) deg l),
          y (E.classStart (n + 1) deg l + a) • E.rep (n + 1) deg l a) = _
        rw [map_sum]
        exact Finset.sum_congr rfl fun a _ => map_smul _ _ _
      rw [e1, map_sum, ← Finset.sum_add_distrib]
      have e2 : ∀ a ∈ range hom.dim, M.mulVecL E.p y (E.classStart n deg k + a) • hom.chain E.p a =
          ∑ l ∈ range (E.spx (n + 1)), ∑ c ∈ range (E.classes (n + 1) deg l),
            y (E.classStart (n + 1) deg l + c) • (M.z E.p (E.classStart n deg k + a)
              (E.classStart (n + 1) deg l + c) • hom.chain E.p a) := by
        intro a _
        rw [hmul, Finset.sum_smul]
        refine Finset.sum_congr rfl fun l _ => ?_
        rw [Finset.sum_smul]
        refine Finset.sum_congr rfl fun c _ => ?_
        rw [smul_smul, mul_comm]
      rw [Finset.sum_congr rfl e2, Finset.sum_comm]
      refine Finset.sum_congr rfl fun l hl => ?_
      rw [Finset.sum_comm, map_sum, ← Finset.sum_add_distrib]
      refine Finset.sum_congr rfl fun a ha => ?_
      rw [map_smul, ← smul_add, ← Finset.smul_sum]
      by_cases h0 : y (E.classStart (n + 1) deg l + a) = 0
      · rw [h0, zero_smul, zero_smul]
      · congr 1
        obtain ⟨b, hbt, hz⟩ := hw l a k (mem_range.1 hl) (mem_range.1 ha) hk h0
        obtain ⟨o, hom', ho, hh', he, -⟩ := hz.closes
        obtain rfl : hom = hom' := Except.ok.inj (hh.symm.trans hh')
        rw [bd_eq ho, he]

end

end Permaviss
