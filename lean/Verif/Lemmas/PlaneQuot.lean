import Verif.Lemmas.PlaneRes
import Verif.Lemmas.StripPos

/-!
# The differential of the second page and the classes which become zero in the whole complex
-/

namespace Permaviss

open Finset

attribute [-instance] instMulZeroClassOfSemiring

section

variable {α : Type} [LinearOrder α] [Zero α] {rnd : α → α} {E : SSEnv α} {ρ : List ℕ → α}

/-- Combinations of given vectors. -/
def linOf {p : ℕ} (x : ℕ → ℕ → ZMod p) (m : ℕ) : (ℕ → ZMod p) →ₗ[ZMod p] (ℕ → ZMod p) where
  toFun c := ∑ i ∈ range m, c i • x i
  map_add' c d := by simp only [Pi.add_apply, add_smul, Finset.sum_add_distrib]
  map_smul' r c := by
    rw [RingHom.id_apply, Finset.smul_sum]
    exact Finset.sum_congr rfl fun a _ => by rw [Pi.smul_apply, smul_eq_mul, mul_smul]

theorem linOf_apply {p : ℕ} (x : ℕ → ℕ → ZMod p) (m : ℕ) (c : ℕ → ZMod p) :
    linOf x m c = ∑ i ∈ range m, c i • x i := rfl

/-- The differential of the second page: `H` with generators `x` is the entry of the second page at the first
column in degree one, `A` with generators `y` the entry at the third column in degree zero, `L j` is the second
part of the representative of `y j`, and the column `j` of `F` is the image of `y j`. -/
structure PageTwoData (E : SSEnv α) (ρ : List ℕ → α) (D D' M1 M2 : Mat)
    (N3 : α → Submodule (ZMod E.p) (ℕ → ZMod E.p)) (bH bA : List (α × α))
    (x y : ℕ → ℕ → ZMod E.p) (L : ℕ → ℕ → ℕ → ZMod E.p) (F : Mat) : Prop where
  first : Gens E 0 1 bH x (barModule E.p (E.firstBars 1 0))
    (imAt E.p (E.firstBars 1 1) (E.firstBars 1 0) M1)
  third : GensW E 2 0 bA y (kerAt E.p (E.firstBars 0 2) (E.firstBars 0 1) M2) N3
  bounds : ∀ t < E.maxR, ∀ z, E.BornBy 2 0 z t → barRestr E.p (E.firstBars 0 2) t z ∈ N3 t →
    ∃ w : ℕ → ℕ → ZMod E.p, (∀ m < E.spx 2, E.PresentAt ρ 2 m 1 (w m) t) ∧ ∀ l < E.spx 1,
      E.cechSum D' 1 0 l (fun m => E.fam 2 0 m z) = E.cechSum D' 1 0 l (fun m => E.bd 2 m 1 (w m))
  lift : ∀ j b, bA[j]? = some b → ∀ l < E.spx 1, E.PresentAt ρ 1 l 1 (L j l) b.1 ∧
    E.bd 1 l 1 (L j l) + E.cechSum D' 1 0 l (fun m => E.fam 2 0 m (y j)) = 0
  birth : ∀ i j b, bA[j]? = some b → F.zcol E.p j i ≠ 0 → ∃ c, bH[i]? = some c ∧ c.1 ≤ b.1
  image : ∀ j b, bA[j]? = some b → ∃ (κ : ℕ → ZMod E.p) (w : ℕ → ℕ → ZMod E.p),
    E.BornBy 1 1 κ b.1 ∧ ∀ k < E.spx 0, E.PresentAt ρ 0 k 2 (w k) b.1 ∧ E.cechSum D 0 1 k (L j) =
      E.fam 0 1 k (linOf x bH.length (F.zcol E.p j)) + E.cechSum D 0 1 k (fun l => E.fam 1 1 l κ) +
        E.bd 0 k 2 (w k)

section

variable {N : ℕ} {D D' M1 M2 F : Mat} {bH bA : List (α × α)} {x y : ℕ → ℕ → ZMod E.p}
  {L : ℕ → ℕ → ℕ → ZMod E.p} {N3 : α → Submodule (ZMod E.p) (ℕ → ZMod E.p)}

theorem BG_mono {N deg : ℕ} {s t : α} (hst : s ≤ t) : E.BG ρ N deg s ≤ E.BG ρ N deg t :=
  Submodule.map_mono (chG_mono hst)

/-- Combinations of generators whose bars are over are zero in the whole complex. -/
theorem PageTwoData.over (h : SSOK rnd E ρ) (C : CoverOK E ρ N D) (he : 1 < E.rows)
    (hM1 : firstDifferential E 0 1 = .ok M1) (S : PageTwoData E ρ D D' M1 M2 N3 bH bA x y L F) {t : α}
    (ht : t < E.maxR) {c : ℕ → ZMod E.p} (hc : ∀ i, c i ≠ 0 → ∃ b, bH[i]? = some b ∧ b.1 ≤ t)
    (hd : barRestr E.p bH t c = 0) : E.whole 1 (linOf x bH.length c) ∈ E.BG ρ N 1 t ∧
      barRestr E.p (E.firstBars 1 0) t (linOf x bH.length c) ∈
        imAt E.p (E.firstBars 1 1) (E.firstBars 1 0) M1 t := by
  have hm : barRestr E.p (E.firstBars 1 0) t (linOf x bH.length c) ∈
      imAt E.p (E.firstBars 1 1) (E.firstBars 1 0) M1 t := by
    rw [linOf_apply, barRestr_smulsum]
    refine Submodule.sum_mem _ fun i _ => ?_
    by_cases h0 : c i = 0
    · rw [h0, zero_smul]; exact Submodule.zero_mem _
    obtain ⟨b, hb, hb1⟩ := hc i h0
    refine Submodule.smul_mem _ _ (S.first.dead i b t hb ?_)
    by_contra hlt
    apply h0
    unfold barRestr at hd
    exact restr_eq_zero.1 hd i ⟨b, hb, hb1, not_le.1 hlt⟩
  exact ⟨whole_of_bounds h C he hM1 ht (bornBy_comb S.first.born hc _) hm, hm⟩

/-- What the differential of the second page hits is zero in the whole complex. -/
theorem PageTwoData.hit (h : SSOK rnd E ρ) (C : CoverOK E ρ N D) (he : 1 < E.rows)
    (S : PageTwoData E ρ D D' M1 M2 N3 bH bA x y L F) {j : ℕ} {b : α × α} (hb : bA[j]? = some b)  :
    E.whole 1 (linOf x bH.length (F.zcol E.p j)) ∈ E.BG ρ N 1 b.1 := by
  obtain ⟨κ, w, hκ, hw⟩ := S.image j b hb
  have e1 := glSum_cech h C he.le (L j)
  rw [glSum_congr fun k hk => (hw k hk).2, glSum_add', glSum_add', glSum_cech h C he.le, add_zero,
    ← whole_eq] at e1
  rw [eq_neg_of_add_eq_zero_left e1]
  exact Submodule.neg_mem _ (glSum_bd_mem h C he fun k hk => (hw k hk).1)

theorem PageTwoData.zero_of_mem (h : SSOK rnd E ρ) (C : CoverOK E ρ N D) (he : 1 < E.rows)
    (hM1 : firstDifferential E 0 1 = .ok M1) (S : PageTwoData E ρ D D' M1 M2 N3 bH bA x y L F) {t : α}
    (ht : t < E.maxR) {c : ℕ → ZMod E.p} (hc : ∀ i, c i ≠ 0 → ∃ b, bH[i]? = some b ∧ b.1 ≤ t)
    (hd : barRestr E.p bH t c ∈ bornSpan E.p bH bA F t t) :
    E.whole 1 (linOf x bH.length c) ∈ E.BG ρ N 1 t := by
  have key : ∀ c : ℕ → ZMod E.p, (∀ i, c i ≠ 0 → ∃ b, bH[i]? = some b ∧ b.1 ≤ t) →
      E.whole 1 (linOf x bH.length (c - barRestr E.p bH t c)) ∈ E.BG ρ N 1 t := by
    intro c hc
    refine (S.over h C he hM1 ht (fun i hi => hc i fun h0 => hi ?_) ?_).1
    · rw [Pi.sub_apply, h0]
      by_cases ha : AliveBar bH i t
      · unfold barRestr; rw [restr_apply_pos ha, h0, sub_zero]
      · unfold barRestr; rw [restr_apply_neg ha, sub_zero]
    · rw [map_sub, sub_eq_zero]; exact (restr_restr _).symm
  have hle : bornSpan E.p bH bA F t t ≤ ((E.BG ρ N 1 t).comap (E.whole 1)).comap (linOf x bH.length) := by
    unfold bornSpan
    rw [Submodule.span_le]
    rintro _ ⟨j, ⟨b, hb, hbt⟩, rfl⟩
    have e1 := BG_mono hbt (S.hit h C he hb (N := N))
    have e2 := key (F.zcol E.p j) fun i hi => by
      obtain ⟨d, hd, hd1⟩ := S.birth i j b hb hi
      exact ⟨d, hd, hd1.trans hbt⟩
    have e3 := Submodule.sub_mem _ e1 e2
    rw [← map_sub, ← map_sub, sub_sub_cancel] at e3
    exact e3
  have e4 := Submodule.add_mem _ (key c hc) (show E.whole 1 (linOf x bH.length (barRestr E.p bH t c)) ∈ _ from hle hd)
  rwa [← map_add, ← map_add, sub_add_cancel] at e4

/-- Only what the differential of the second page hits is zero in the whole complex. -/
theorem PageTwoData.mem_of_zero (h : SSOK rnd E ρ) (C : CoverOK E ρ N D) (hD' : E.nerveDiff[1]? = some D')
    (hI : E.CechEx ρ D D') (hlen : 2 < E.columns.length) (he : 1 < E.rows)
    (hM1 : firstDifferential E 0 1 = .ok M1) (hM2 : firstDifferential E 1 0 = .ok M2)
    (S : PageTwoData E ρ D D' M1 M2 N3 bH bA x y L F) {t : α}
    (ht : t < E.maxR) {c : ℕ → ZMod E.p} (hc : ∀ i, ¬ AliveBar bH i t → c i = 0)
    (hw : E.whole 1 (linOf x bH.length c) ∈ E.BG ρ N 1 t) :
    c ∈ bornSpan E.p bH bA F t t := by
  have hc0 : 0 < E.columns.length := by have := C.cols; omega
  have hXb : E.BornBy 0 1 (linOf x bH.length c) t := S.first.comb hc
  obtain ⟨w, hw1, hw2⟩ := mem_BG h C he ht hw
  rw [whole_eq] at hw2
  have hw2' := sub_eq_zero.2 hw2
  rw [← glSum_sub'] at hw2'
  obtain ⟨u, hu1, hu2⟩ := cech_exact h C he.le (t := t)
    (c := fun k => E.fam 0 1 k (linOf x bH.length c) - E.bd 0 k (1 + 1) (w k)) (by
      intro k hk
      exact PresentAt.sub (fam_cycle h hc0 he hXb hk).1 (present_bd h hc0 he hk (hw1 k hk)).1)
    (by rw [← glSum_eq]; exact hw2')
  obtain ⟨r, hr1, hr2⟩ := hI 0 (by omega) t (fun l => E.bd 1 l 1 (u l))
    (fun l hl => (present_bd h C.cols (by omega) hl (hu1 l hl)).1) fun k hk => by
    rw [cechSum_bd h C.diff C.cols (by omega) hk, ← hu2 k hk, map_sub,
      (fam_cycle h hc0 he hXb hk).2, (present_bd h hc0 he hk (hw1 k hk)).2, sub_zero, neg_zero]
  obtain ⟨β, w', hβ, hw'⟩ := exists_fam h hlen (show 0 < E.rows by omega) ht fun m hm =>
    ⟨hr1 m hm, by rw [bd_zero]; rfl⟩
  -- the Čech differential of these classes
  have hcβ : ∀ l < E.spx 1, E.cechSum D' 1 0 l (fun m => E.fam 2 0 m β) =
      E.bd 1 l 1 (u l) - E.bd 1 l 1 (E.cechSum D' 1 1 l w') := by
    intro l hl
    rw [hr2 l hl, sub_eq_neg_add, ← cechSum_bd h hD' hlen (by omega) hl, ← cechSum_add]
    exact (cechSum_congr fun m hm => (hw' m hm).2).symm
  obtain ⟨g1, w2, hw2⟩ := fam_first h hD' hlen (by omega) hM2 hβ
  have hdead : barRestr E.p (E.firstBars 0 1) t (M2.mulVecL E.p β) = 0 := by
    refine fam_dead h C.cols (by omega) ht g1 (w := fun l => w2 l + (u l - E.cechSum D' 1 1 l w'))
      fun l hl => ⟨?_, ?_⟩
    · exact PresentAt.add (hw2 l hl).1 (PresentAt.sub (hu1 l hl) (PresentAt.cechSum fun m hm => (hw' m hm).1))
    · rw [← (hw2 l hl).2, map_add, map_sub, hcβ l hl]
  have hker : barRestr E.p (E.firstBars 0 2) t β ∈ kerAt E.p (E.firstBars 0 2) (E.firstBars 0 1) M2 t := by
    refine ⟨⟨β, rfl⟩, ?_⟩
    rw [SetLike.mem_coe, LinearMap.mem_ker]
    unfold morAt
    rw [LinearMap.comp_apply, LinearMap.comp_apply]
    rw [show barRestr E.p (E.firstBars 0 2) t (barRestr E.p (E.firstBars 0 2) t β) =
      barRestr E.p (E.firstBars 0 2) t β from restr_restr _, first_dead h hlen (by omega) hM2 hβ, hdead]
  obtain ⟨a, ha, hs⟩ := S.third.span t _ hker
  rw [← map_sub] at hs
  have hYb := S.third.comb ha
  obtain ⟨w3, hw3, hw3'⟩ := S.bounds t ht _ (BornBy.sub hβ hYb) hs
  have hal : ∀ j, a j ≠ 0 → ∃ b, bA[j]? = some b ∧ b.1 ≤ t := by
    intro j hj
    have : AliveBar bA j t := by by_contra hn; exact hj (ha j hn)
    obtain ⟨b, hb, hb1, -⟩ := this
    exact ⟨b, hb, hb1⟩
  -- the lifts of the combination
  have hLp : ∀ l < E.spx 1, E.PresentAt ρ 1 l 1 (∑ j ∈ range bA.length, a j • L j l) t := by
    intro l hl
    refine PresentAt.sum _ _ fun j _ => ?_
    by_cases h0 : a j = 0
    · rw [h0, zero_smul]; exact fun i hi => absurd rfl hi
    obtain ⟨b, hb, hb1⟩ := hal j h0
    exact PresentAt.smul _ (PresentAt.mono hb1 (S.lift j b hb l hl).1)
  have hLb : ∀ l < E.spx 1, E.bd 1 l 1 (∑ j ∈ range bA.length, a j • L j l) +
      E.cechSum D' 1 0 l (fun m => E.fam 2 0 m (∑ j ∈ range bA.length, a j • y j)) = 0 := by
    intro l hl
    simp only [fam_smulsum]
    rw [cechSum_smulsum a (fun j m => E.fam 2 0 m (y j)), map_sum, ← Finset.sum_add_distrib]
    refine Finset.sum_eq_zero fun j hj => ?_
    rw [map_smul, ← smul_add, (S.lift j _ (List.getElem?_eq_getElem (mem_range.1 hj)) l hl).2, smul_zero]
  -- a family of cycles on the second column
  obtain ⟨η, w4, hη, hw4⟩ := exists_fam h C.cols he ht (z := fun l => u l +
      ∑ j ∈ range bA.length, a j • L j l + E.cechSum D' 1 1 l (fun m => w3 m - w' m)) fun l hl => by
    refine ⟨PresentAt.add (PresentAt.add (hu1 l hl) (hLp l hl))
      (PresentAt.cechSum fun m hm => PresentAt.sub (hw3 m hm) (hw' m hm).1), ?_⟩
    have e1 := hcβ l hl
    have e2 := hw3' l hl
    simp only [map_sub] at e2
    rw [cechSum_sub (fun m => E.fam 2 0 m β), cechSum_bd h hD' hlen (by omega) hl, e1] at e2
    have e3 := hLb l hl
    rw [map_add, map_add, cechSum_sub, map_sub, eq_neg_of_add_eq_zero_left e3]
    rw [sub_eq_iff_eq_add] at e2
    rw [sub_eq_iff_eq_add.1 e2]
    abel
  -- its Čech differential
  choose! κ wj hκ hwj using S.image
  have hκb : E.BornBy 1 1 (∑ j ∈ range bA.length, a j • κ j (bA.getD j (t, t))) t := by
    refine BornBy.sum _ _ fun j _ => ?_
    by_cases h0 : a j = 0
    · rw [h0, zero_smul]; exact BornBy.zero
    obtain ⟨b, hb, hb1⟩ := hal j h0
    rw [List.getD_eq_getElem?_getD, hb]
    exact BornBy.smul _ (BornBy.mono hb1 (hκ j b hb))
  obtain ⟨g2, w5, hw5⟩ := fam_first h C.diff C.cols he hM1 hη
  have hcc : ∀ i, c i ≠ 0 → ∃ b, bH[i]? = some b ∧ b.1 ≤ t := by
    intro i hi
    have : AliveBar bH i t := by by_contra hn; exact hi (hc i hn)
    obtain ⟨b, hb, hb1, -⟩ := this
    exact ⟨b, hb, hb1⟩
  set c' : ℕ → ZMod E.p := c + ∑ j ∈ range bA.length, a j • F.zcol E.p j with hc'
  have hcb : ∀ i, c' i ≠ 0 → ∃ b, bH[i]? = some b ∧ b.1 ≤ t := by
    intro i hi
    by_cases h0 : c i = 0
    · rw [hc', Pi.add_apply, h0, zero_add, Finset.sum_apply] at hi
      obtain ⟨j, -, hj⟩ := Finset.exists_ne_zero_of_sum_ne_zero hi
      rw [Pi.smul_apply, smul_eq_mul] at hj
      obtain ⟨b, hb, hb1⟩ := hal j fun e => hj (by rw [e, zero_mul])
      obtain ⟨d, hd, hd1⟩ := S.birth i j b hb fun e => hj (by rw [e, mul_zero])
      exact ⟨d, hd, hd1.trans hb1⟩
    · exact hcc i h0
  have him : barRestr E.p (E.firstBars 1 0) t (linOf x bH.length c') ∈
      imAt E.p (E.firstBars 1 1) (E.firstBars 1 0) M1 t := by
    refine fam_bounds h C.diff C.cols he hM1 ht (bornBy_comb S.first.born hcb _)
      (κ := η - ∑ j ∈ range bA.length, a j • κ j (bA.getD j (t, t))) (BornBy.sub hη hκb)
      (w := fun k => w k + E.cechSum D 0 2 k w4 - ∑ j ∈ range bA.length, a j • wj j (bA.getD j (t, t)) k)
      fun k hk => ⟨?_, ?_⟩
    · refine PresentAt.sub (PresentAt.add (hw1 k hk) (PresentAt.cechSum fun l hl => (hw4 l hl).1)) ?_
      refine PresentAt.sum _ _ fun j _ => ?_
      by_cases h0 : a j = 0
      · rw [h0, zero_smul]; exact fun i hi => absurd rfl hi
      obtain ⟨b, hb, hb1⟩ := hal j h0
      rw [List.getD_eq_getElem?_getD, hb]
      exact PresentAt.smul _ (PresentAt.mono hb1 (hwj j b hb k hk).1)
    · have e1 : E.cechSum D 0 1 k (fun l => ∑ j ∈ range bA.length, a j • L j l) =
          E.fam 0 1 k (linOf x bH.length (∑ j ∈ range bA.length, a j • F.zcol E.p j)) +
          E.cechSum D 0 1 k (fun l => E.fam 1 1 l (∑ j ∈ range bA.length, a j • κ j (bA.getD j (t, t)))) +
          E.bd 0 k 2 (∑ j ∈ range bA.length, a j • wj j (bA.getD j (t, t)) k) := by
        simp only [fam_smulsum]
        rw [cechSum_smulsum, cechSum_smulsum a (fun j l => E.fam 1 1 l (κ j (bA.getD j (t, t)))), map_sum,
          map_sum, map_sum, ← Finset.sum_add_distrib, ← Finset.sum_add_distrib]
        refine Finset.sum_congr rfl fun j hj => ?_
        have hb := List.getElem?_eq_getElem (mem_range.1 hj)
        rw [List.getD_eq_getElem?_getD, hb, Option.getD_some]
        rw [map_smul, map_smul, map_smul, ← smul_add, ← smul_add, (hwj j _ hb k hk).2]
      have e2 : E.cechSum D 0 1 k (fun l => E.fam 1 1 l η) = - E.bd 0 k 2 (E.cechSum D 0 2 k w4) +
          (E.fam 0 1 k (linOf x bH.length c) - E.bd 0 k 2 (w k)) +
          E.cechSum D 0 1 k (fun l => ∑ j ∈ range bA.length, a j • L j l) := by
        rw [← cechSum_bd h C.diff C.cols he hk, hu2 k hk]
        have e3 := cechSum_cechSum h C.diff hD' hlen (show 1 ≤ E.rows by omega) hk (fun m => w3 m - w' m)
        rw [← add_zero (E.cechSum D 0 1 k (fun l => ∑ j ∈ range bA.length, a j • L j l)), ← e3, ← cechSum_add,
          ← cechSum_add, ← cechSum_add]
        refine cechSum_congr fun l hl => ?_
        rw [← (hw4 l hl).2]
        abel
      simp only [map_sub]
      rw [cechSum_sub (fun l => E.fam 1 1 l η), e2, e1, hc', map_add, map_add, map_add]
      abel
  -- the combination of generators alive
  have hres := (S.over h C he hM1 ht (c := c' - barRestr E.p bH t c') (fun i hi => hcb i fun h0 => hi (by
      rw [Pi.sub_apply, h0]
      by_cases ha : AliveBar bH i t
      · unfold barRestr; rw [restr_apply_pos ha, h0, sub_zero]
      · unfold barRestr; rw [restr_apply_neg ha, sub_zero]))
    (by rw [map_sub, sub_eq_zero]; exact (restr_restr _).symm)).2
  have him2 := Submodule.sub_mem _ him hres
  rw [← map_sub, ← map_sub, sub_sub_cancel] at him2
  have hz := S.first.indep t (barRestr E.p bH t c') (fun i hi => by
    unfold barRestr; rw [restr_apply_neg hi]) him2
  have hz' : barRestr E.p bH t c' = 0 := funext hz
  have hcr : barRestr E.p bH t c = c := by
    funext i
    by_cases ha : AliveBar bH i t
    · unfold barRestr; rw [restr_apply_pos ha]
    · unfold barRestr; rw [restr_apply_neg ha, hc i ha]
  rw [hc', map_add, hcr, barRestr_smulsum] at hz'
  rw [eq_neg_of_add_eq_zero_left hz']
  refine Submodule.neg_mem _ (Submodule.sum_mem _ fun j _ => ?_)
  by_cases h0 : a j = 0
  · rw [h0, zero_smul]; exact Submodule.zero_mem _
  · obtain ⟨b, hb, hb1⟩ := hal j h0
    exact Submodule.smul_mem _ _ (Submodule.subset_span ⟨j, ⟨b, hb, hb1⟩, rfl⟩)

/-- The generators of the third page give generators of the classes of the first column in the whole
complex. -/
theorem PageTwoData.gens (h : SSOK rnd E ρ) (C : CoverOK E ρ N D) (hD' : E.nerveDiff[1]? = some D')
    (hI : E.CechEx ρ D D') (hlen : 2 < E.columns.length) (he : 1 < E.rows)
    (hM1 : firstDifferential E 0 1 = .ok M1) (hM2 : firstDifferential E 1 0 = .ok M2)
    (S : PageTwoData E ρ D D' M1 M2 N3 bH bA x y L F) {Q : Basis α}
    (hQ : QuotGen E.p bH Q fun t => bornSpan E.p bH bA F t t) :
    GensR E 0 1 Q.barcode (fun i => linOf x bH.length (Q.coords.zcol E.p i))
      (barModule E.p (E.firstBars 1 0)) (E.NI ρ N 1) := by
  have := Fact.mk h.prime
  -- births
  have hcol : ∀ i b, Q.barcode[i]? = some b → ∀ k, Q.coords.zcol E.p i k ≠ 0 →
      ∃ c, bH[k]? = some c ∧ c.1 ≤ b.1 := by
    intro i b hb k hk
    have hk' : k < bH.length := by
      by_contra hge
      apply hk
      unfold Mat.zcol
      have hi : i < Q.coords.cols.length := by
        rw [show Q.coords.cols.length = Q.barcode.length from hQ.mat.ncols]
        exact (List.getElem?_eq_some_iff.1 hb).1
      rw [zv_of_le]
      have : (Q.coords.cols.getD i []).length = bH.length := by
        rw [List_getD_eq_getElem _ _ hi]; exact hQ.mat.len _ (List.getElem_mem hi)
      change (Q.coords.cols.getD i []).length ≤ k
      omega
    exact ⟨_, List.getElem?_eq_getElem hk', hQ.born k i b _ hb (List.getElem?_eq_getElem hk') hk⟩
  have hborn : ∀ i b, Q.barcode[i]? = some b → E.BornBy 0 1 (linOf x bH.length (Q.coords.zcol E.p i)) b.1 :=
    fun i b hb => bornBy_comb S.first.born (hcol i b hb) _
  have hsum : ∀ c : ℕ → ZMod E.p, ∑ i ∈ range Q.barcode.length, c i • linOf x bH.length (Q.coords.zcol E.p i) =
      linOf x bH.length (∑ i ∈ range Q.barcode.length, c i • Q.coords.zcol E.p i) := by
    intro c
    rw [map_sum]
    exact Finset.sum_congr rfl fun i _ => (map_smul _ _ _).symm
  have hsb : ∀ t (c : ℕ → ZMod E.p), (∀ i, ¬ AliveBar Q.barcode i t → c i = 0) →
      ∀ k, (∑ i ∈ range Q.barcode.length, c i • Q.coords.zcol E.p i) k ≠ 0 → ∃ b, bH[k]? = some b ∧ b.1 ≤ t := by
    intro t c hc k hk
    rw [Finset.sum_apply] at hk
    obtain ⟨i, -, hi⟩ := Finset.exists_ne_zero_of_sum_ne_zero hk
    rw [Pi.smul_apply, smul_eq_mul] at hi
    have : AliveBar Q.barcode i t := by
      by_contra hn
      exact hi (by rw [hc i hn, zero_mul])
    obtain ⟨b, hb, hb1, -⟩ := this
    obtain ⟨d, hd, hd1⟩ := hcol i b hb k fun e => hi (by rw [e, mul_zero])
    exact ⟨d, hd, hd1.trans hb1⟩
  refine ⟨hQ.bars, hborn, ?_, ?_, ?_⟩
  · intro i b t hb hbt ht
    have hbb := hQ.bars b (List.mem_of_getElem? hb)
    rw [mem_NI h C he ht (BornBy.mono (hbb.le.trans hbt) (hborn i b hb))]
    refine S.zero_of_mem h C he hM1 ht (fun k hk => ?_) (hQ.dead t i b hb hbt)
    obtain ⟨d, hd, hd1⟩ := hcol i b hb k hk
    exact ⟨d, hd, hd1.trans (hbb.le.trans hbt)⟩
  · intro t z ht hz
    obtain ⟨c, hc, hs⟩ := S.first.span t z hz
    have hzr : z = barRestr E.p (E.firstBars 1 0) t z := by
      obtain ⟨z', rfl⟩ := hz
      exact (restr_restr _).symm
    have hzb : E.BornBy 0 1 z t := BornBy.of_barModule hz
    have hcb : c ∈ barModule E.p bH t := by
      refine ⟨c, ?_⟩
      funext i
      by_cases ha : AliveBar bH i t
      · unfold barRestr; rw [restr_apply_pos ha]
      · unfold barRestr; rw [restr_apply_neg ha, hc i ha]
    obtain ⟨n, hn, s, hs', hns⟩ := Submodule.mem_sup.1 (hQ.span t hcb)
    obtain ⟨a, ha, rfl⟩ := coef_of_span (f := fun i => barRestr E.p bH t (Q.coords.zcol E.p i))
      (P := fun i => AliveBar Q.barcode i t) (m := Q.barcode.length) (fun i hi => aliveBar_lt hi) hs'
    refine ⟨a, ha, ?_⟩
    have hcc : ∀ i, c i ≠ 0 → ∃ b, bH[i]? = some b ∧ b.1 ≤ t := by
      intro i hi
      have : AliveBar bH i t := by by_contra hn; exact hi (hc i hn)
      obtain ⟨b, hb, hb1, -⟩ := this
      exact ⟨b, hb, hb1⟩
    have hlin : E.BornBy 0 1 (linOf x bH.length c) t := S.first.comb hc
    have hg : E.BornBy 0 1 (∑ i ∈ range Q.barcode.length, a i • linOf x bH.length (Q.coords.zcol E.p i)) t := by
      rw [hsum]; exact bornBy_comb S.first.born (hsb t a ha) _
    rw [show z - barRestr E.p (E.firstBars 1 0) t (∑ i ∈ range Q.barcode.length,
        a i • linOf x bH.length (Q.coords.zcol E.p i)) = barRestr E.p (E.firstBars 1 0) t
        (z - ∑ i ∈ range Q.barcode.length, a i • linOf x bH.length (Q.coords.zcol E.p i)) by
      rw [map_sub, ← hzr], mem_NI h C he ht (BornBy.sub hzb hg)]
    have e1 : E.whole 1 (z - linOf x bH.length c) ∈ E.BG ρ N 1 t := by
      refine whole_of_bounds h C he hM1 ht (BornBy.sub hzb hlin) ?_
      rw [map_sub, ← hzr]
      exact hs
    have e2 : E.whole 1 (linOf x bH.length (c - ∑ i ∈ range Q.barcode.length, a i • Q.coords.zcol E.p i)) ∈
        E.BG ρ N 1 t := by
      refine S.zero_of_mem h C he hM1 ht (fun i hi => ?_) ?_
      · by_cases h0 : c i = 0
        · exact hsb t a ha i fun e => hi (by rw [Pi.sub_apply, h0, e, sub_zero])
        · exact hcc i h0
      · rw [map_sub, barRestr_smulsum]
        have : barRestr E.p bH t c = c := by
          obtain ⟨c', rfl⟩ := hcb
          exact restr_restr _
        rw [this, ← hns, add_sub_cancel_right]
        exact hn
    have e3 := Submodule.add_mem _ e1 e2
    rw [map_sub (linOf x bH.length), ← map_add, sub_add_sub_cancel, ← hsum] at e3
    exact e3
  · intro t c ht hc hm
    have hb := hsb t c hc
    rw [hsum] at hm
    have hm := (mem_NI h C he ht (x := linOf x bH.length _) (bornBy_comb S.first.born hb _)).1 hm
    have hmem := S.mem_of_zero h C hD' hI hlen he hM1 hM2 ht
      (c := barRestr E.p bH t (∑ i ∈ range Q.barcode.length, c i • Q.coords.zcol E.p i))
      (fun i hi => by unfold barRestr; rw [restr_apply_neg hi]) (by
        have e1 := (S.over h C he hM1 ht (c := (∑ i ∈ range Q.barcode.length, c i • Q.coords.zcol E.p i) -
            barRestr E.p bH t (∑ i ∈ range Q.barcode.length, c i • Q.coords.zcol E.p i)) (fun i hi => hb i fun h0 => hi (by
          rw [Pi.sub_apply, h0]
          by_cases ha : AliveBar bH i t
          · unfold barRestr; rw [restr_apply_pos ha, h0, sub_zero]
          · unfold barRestr; rw [restr_apply_neg ha, sub_zero]))
          (by rw [map_sub, sub_eq_zero]; exact (restr_restr _).symm)).1
        have e2 := Submodule.sub_mem _ hm e1
        rwa [← map_sub, ← map_sub, sub_sub_cancel] at e2)
    refine fun i => coef_of_indep (f := fun i => (bornSpan E.p bH bA F t t).mkQ
      (barRestr E.p bH t (Q.coords.zcol E.p i))) (P := fun i => AliveBar Q.barcode i t)
      (m := Q.barcode.length) (fun i hi => aliveBar_lt hi) (hQ.indep t) hc ?_ i
    rw [barRestr_smulsum] at hmem
    rw [← (Submodule.Quotient.mk_eq_zero _).2 hmem]
    change _ = (bornSpan E.p bH bA F t t).mkQ _
    rw [map_sum]
    exact Finset.sum_congr rfl fun i _ => (map_smul _ _ _).symm

end

end

end Permaviss
