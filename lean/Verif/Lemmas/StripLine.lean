import Verif.Lemmas.StripDiag
import Verif.Lemmas.CoverOK
import Verif.Lemmas.DegreeZero

/-!
# Cubes in a line

When all but one of the coordinates fit in one cube, the cubes form a line: the nerve has no triangles and
the Čech differential from the intersections to the cubes is injective.
-/

namespace Permaviss

open Finset

attribute [-instance] instMulZeroClassOfSemiring

theorem prod_of_narrow {ds : List ℕ} (hpos : ∀ d ∈ ds, 0 < d) (h : wideDims ds = 0) : ds.prod = 1 := by
  induction ds with
  | nil => rfl
  | cons d ds ih =>
    have hd := hpos d (by simp)
    by_cases h2 : 2 ≤ d
    · simp [wideDims, h2] at h
    · have h1 : d = 1 := by omega
      subst h1
      rw [List.prod_cons, ih (fun x hx => hpos x (by simp [hx])) (by simpa [wideDims] using h)]

theorem wideDims_line {ds : List ℕ} {i0 : ℕ} (h : ∀ i < ds.length, i ≠ i0 → ds.getD i 0 ≤ 1) :
    wideDims ds ≤ 1 := by
  induction ds generalizing i0 with
  | nil => simp [wideDims]
  | cons d ds ih =>
    by_cases h0 : i0 = 0
    · have : wideDims ds = 0 := by
        unfold wideDims
        rw [List.length_eq_zero_iff, List.filter_eq_nil_iff]
        intro x hx
        obtain ⟨i, hi, rfl⟩ := List.getElem_of_mem hx
        have := h (i + 1) (by simpa using hi) (by omega)
        rw [List.getD_cons_succ, List_getD_eq_getElem _ _ hi] at this
        simp; omega
      have h2 : wideDims (d :: ds) ≤ wideDims ds + 1 := by
        unfold wideDims
        rw [List.filter_cons]
        split <;> simp
      omega
    · have hd : d ≤ 1 := by simpa using h 0 (by simp) (by omega)
      have h2 : wideDims (d :: ds) = wideDims ds := by simp [wideDims, show ¬ 2 ≤ d by omega]
      rw [h2]
      refine ih (i0 := i0 - 1) fun i hi hne => ?_
      have := h (i + 1) (by simpa using hi) (by omega)
      rwa [List.getD_cons_succ] at this

/-- Adjacent cubes of a line are consecutive. -/
theorem rank_line {ds : List ℕ} (hpos : ∀ d ∈ ds, 0 < d) (h : wideDims ds ≤ 1) {p q : List ℕ}
    (hp : IsPos ds p) (hq : IsPos ds q) (ha : Adjacent p q) : rank ds q ≤ rank ds p + 1 := by
  induction ds generalizing p q with
  | nil => simp [rank]
  | cons d ds ih =>
    cases hp with
    | @cons a _ p' _ hpd hp' =>
    cases hq with
    | @cons b _ q' _ hqd hq' =>
    cases ha with
    | cons hab ha' =>
    have hpos' : ∀ x ∈ ds, 0 < x := fun x hx => hpos x (by simp [hx])
    simp only [rank]
    by_cases h2 : 2 ≤ d
    · have hw : wideDims ds = 0 := by
        have : wideDims (d :: ds) = wideDims ds + 1 := by simp [wideDims, h2]
        omega
      have h1 := prod_of_narrow hpos' hw
      have := rank_lt hp'
      have := rank_lt hq'
      rw [h1] at *
      omega
    · have hd : d = 1 := by have := hpos d (by simp); omega
      subst hd
      have e1 : a = 0 := by omega
      have e2 : b = 0 := by omega
      subst e1 e2
      have := ih hpos' (by simpa [wideDims] using h) hp' hq' ha'
      omega

section

variable {α : Type} [LinearOrder α] [Zero α] {rnd : α → α} {E : SSEnv α} {ρ : List ℕ → α}

/-- The Čech differential is injective when the intersections are the edges of a forest: each of them meets
a cube that is met by no intersection that comes later. -/
theorem CechInj.of_forest (h : SSOK rnd E ρ) {D : Mat} (hD : E.nerveDiff[0]? = some D)
    (hn : 1 < E.columns.length) (low : ℕ → ℕ)
    (hlow : ∀ l < E.spx 1, low l < E.spx 0 ∧ D.z E.p (low l) l ≠ 0 ∧
      ∀ l' < E.spx 1, l' ≠ l → D.z E.p (low l) l' ≠ 0 → low l' < low l) : E.CechInj ρ D := by
  have := Fact.mk h.prime
  intro deg hdeg t c hc hz
  have key : ∀ m, ∀ l < E.spx 1, low l = m → c l = 0 := by
    intro m
    induction m using Nat.strong_induction_on with
    | _ m ih =>
    intro l hl hm
    obtain ⟨h1, h2, h3⟩ := hlow l hl
    have hs := congrArg (E.gl 0 (low l) deg) (hz (low l) h1)
    unfold SSEnv.cechSum at hs
    rw [map_zero, map_sum, Finset.sum_eq_single l] at hs
    · rw [gl_cechOf h hD hn hdeg h1 hl, smul_eq_zero] at hs
      have hg : E.gl 1 l deg (c l) = 0 := by
        rcases hs with hs | hs
        · exact absurd hs (mul_ne_zero (pow_ne_zero _ (neg_ne_zero.2 one_ne_zero)) h2)
        · exact hs
      funext i
      by_contra hi
      obtain ⟨s, hsi, -⟩ := hc l hl i hi
      have hil := (List.getElem?_eq_some_iff.1 hsi).1
      have := toChain_apply (h.G_nodup hn hl deg) (c l) hil
      change E.gl 1 l deg (c l) _ = _ at this
      rw [hg, Finsupp.zero_apply] at this
      exact hi this.symm
    · intro l' hl' hne
      have hl'' := mem_range.1 hl'
      rw [gl_cechOf h hD hn hdeg h1 hl'']
      by_cases hd : D.z E.p (low l) l' = 0
      · rw [hd, mul_zero, zero_smul]
      · rw [ih (low l') (hm ▸ h3 l' hl'' hne hd) l' hl'' rfl, map_zero, smul_zero]
    · intro hc; exact absurd (mem_range.2 hl) hc
  exact fun l hl => key _ l hl rfl

/-- A cube without components has no points. -/
theorem skip_zero (h : SSOK rnd E ρ) (hrow : 0 < E.rows) {n : ℕ} (hn : n < E.columns.length) {k : ℕ}
    (hk : k < E.spx n) (h0 : E.classes n 0 k = 0) : E.G n k 0 = [] := by
  by_contra hne
  have hi : 0 < (E.G n k 0).length := List.length_pos_of_ne_nil hne
  obtain ⟨o, pts, ho, hpts, -⟩ := h.piece n hn k hk
  obtain ⟨-, -, -, m4⟩ := (h.mem n hn k hk pts hpts 0 (by omega) _).1 (List.getElem_mem hi)
  obtain ⟨x, w, hx, hw⟩ := exists_fam h (n := n) (deg := 0) hn hrow m4
    (z := fun k' => if k' = k then Pi.single 0 1 else 0) (by
      intro k' hk'
      refine ⟨?_, by rw [bd_zero]; rfl⟩
      intro j hj
      beta_reduce at hj
      split at hj
      · next e =>
        subst e
        by_cases hji : j = 0
        · subst hji
          exact ⟨_, List.getElem?_eq_getElem hi, le_rfl⟩
        · exact absurd (Pi.single_eq_of_ne hji _) hj
      · exact absurd rfl hj)
  have := (hw k hk).2
  have hf : E.fam n 0 k x = 0 := by
    change ∑ a ∈ range (E.classes n 0 k), _ = _
    rw [h0, Finset.range_zero, Finset.sum_empty]
  rw [hf] at this
  beta_reduce at this
  rw [if_pos rfl] at this
  exact vertex_not_boundary h hn hk hrow hi _ this

/-- No gap from the first column to the second one when the cubes without classes have no simplices. -/
theorem gap_of_skip (h : SSOK rnd E ρ) {e : ℕ} (he : e < E.rows) (hn : 1 < E.columns.length)
    (hface : ∀ l < E.spx 1, ∃ k < E.spx 0, ∀ pts pts',
        E.pts 0 k = .ok pts → E.pts 1 l = .ok pts' → pts' ⊆ pts)
    (hskip : E.firstBars e 1 ≠ [] → ∀ k < E.spx 0, E.classes 0 e k = 0 → E.G 0 k e = [])
    (h0 : E.firstBars e 0 = []) : E.firstBars e 1 = [] := by
  by_contra hne
  obtain ⟨b, hb⟩ := List.exists_mem_of_ne_nil _ hne
  obtain ⟨l, hl, s, hs, -⟩ := h.birth_radius hn he hb
  obtain ⟨k, hk, hsub⟩ := hface l hl
  obtain ⟨o, pts, ho, hpts, -⟩ := h.piece 0 (by omega) k hk
  obtain ⟨o', pts', ho', hpts', -⟩ := h.piece 1 hn l hl
  obtain ⟨m1, m2, m3, m4⟩ := (h.mem 1 hn l hl pts' hpts' e (by omega) s).1 hs
  have hs' : s ∈ E.G 0 k e := (h.mem 0 (by omega) k hk pts hpts e (by omega) s).2
    ⟨m1, m2, fun v hv => hsub pts pts' hpts hpts' (m3 v hv), m4⟩
  have hcl : E.classes 0 e k = 0 := by
    have h1 := h.firstBars_length' (n := 0) (by omega) he
    rw [h0, h.pageOne_eq (by omega) he] at h1
    have h2 := classStart_mono (E := E) 0 e (show k + 1 ≤ E.spx 0 by omega)
    rw [classStart_succ] at h2
    simp only [List.length_nil] at h1
    omega
  rw [hskip hne k hk hcl] at hs'
  simp at hs'

end

section

variable {K : Type} [Field K] [LinearOrder K] [IsStrictOrderedRing K] [FloorRing K]

/-- The nerve of cubes in a line. -/
theorem createEnv_line {p : ℕ} (hp : p.Prime) {pdist : List (List K) → List (List K)}
    {d : List K → List K → K} (hdist : IsDistTable pdist d) {argsort : List K → List Nat}
    (ha : IsArgsort argsort) {rnd : K → K} {maxR : K} (hmax : 0 < maxR) {maxDim : ℕ}
    {maxDiv dim : Nat} {overlap : K} {cloud : List (List K)} {lo hi : Nat → K}
    {side : K} (hne : cloud ≠ []) (hdim : 0 < dim) (hm : 0 < maxDiv)
    (hbox : IsBox maxDiv dim cloud lo hi side) (hs : 0 < side) (hw : ∀ i < dim, lo i < hi i)
    {i0 : ℕ} (hline : ∀ i < dim, i ≠ i0 → hi i - lo i ≤ side) {E : SSEnv K}
    (hE : createEnv pdist argsort rnd maxR maxDim maxDiv overlap dim cloud p = .ok E) :
    0 < E.spx 0 ∧ (∀ n, 2 ≤ n → E.spx n = 0) ∧
      ∀ D, E.nerveDiff[0]? = some D → E.CechInj (diam d fun v => cloud.getD v []) D := by
  obtain ⟨E', div, C, L, h1, hS, h3, h4, h5, h6, h7, h8, hdiv, hN, hC, hD, hspx, -⟩ :=
    createEnv_ok hp hdist ha rnd hmax maxDim overlap hne hdim hm hbox hs
  rw [hE] at h1
  obtain rfl := Except.ok.inj h1
  have hdl := hdiv.1
  have hpos : ∀ x ∈ div, 0 < x := by
    intro x hx
    obtain ⟨i, hi, rfl⟩ := List.getElem_of_mem hx
    have := (isDiv_pos_iff hdiv (d := i) (by omega) hs).2 (hw i (by omega))
    rwa [List_getD_eq_getElem _ _ hi] at this
  have hwide : wideDims div ≤ 1 := by
    refine wideDims_line (i0 := i0) fun i hi hne => ?_
    refine (hdiv.2 i (by omega)).2 ?_
    simpa using hline i (by omega) hne
  have hcols : 1 < E.columns.length := by
    rw [h7]; exact Nat.one_lt_two_pow (by omega)
  have h0 : E.spx 0 = div.prod := by rw [hspx]; simp [simplicesOf]
  refine ⟨?_, ?_, ?_⟩
  · rw [h0]
    exact Nat.pos_of_ne_zero fun hc => by
      rw [List.prod_eq_zero_iff] at hc
      exact absurd (hpos 0 hc) (by omega)
  · intro n hn
    rw [hspx]
    by_contra hc
    have hmem := List.getElem_mem (Nat.pos_of_ne_zero hc)
    set s := (simplicesOf div.prod C n)[0]'(Nat.pos_of_ne_zero hc) with hsd
    obtain ⟨C', c1, c2, -⟩ := C42_pure hpos
    rw [hN] at c1
    obtain rfl : C = C' := congrArg Prod.snd (Except.ok.inj c1)
    obtain ⟨m, rfl⟩ : ∃ m, n = m + 1 := ⟨n - 1, by omega⟩
    have hlen := (simplicesOf_spec hC hmem).1
    simp only [simplicesOf] at hmem
    rw [List.getD_eq_getElem?_getD] at hmem
    cases hCm : C[m]? with
    | none => rw [hCm] at hmem; simp at hmem
    | some S =>
      rw [hCm] at hmem
      have := c2 S (List.mem_of_getElem? hCm) _ hmem
      have h2 : 2 ^ (div.filter fun d => decide (2 ≤ d)).length ≤ 2 ^ 1 :=
        Nat.pow_le_pow_right (by omega) hwide
      omega
  · intro D hD0
    obtain ⟨C', Ed, c1, c2, c3, c4⟩ := C41_nerve_edges hpos
    rw [hN] at c1
    obtain rfl : C = C' := congrArg Prod.snd (Except.ok.inj c1)
    have hEd : simplicesOf div.prod C 1 = Ed := by
      simp [simplicesOf, List.getD_eq_getElem?_getD, c2]
    have hs1 : E.spx 1 = Ed.length := by rw [hspx, hEd]
    obtain ⟨-, -, -, hDD, -⟩ := C19_differentials_boundary hp.two_le hC _ _ hD
    obtain ⟨D', d1, d2, d3, d4⟩ := hDD Ed c2
    rw [hD0] at d1
    obtain rfl := Option.some.inj d1
    have hedge : ∀ l < E.spx 1, ∃ u, Ed[l]? = some [u, u + 1] ∧ u + 1 < div.prod := by
      intro l hl
      rw [hs1] at hl
      have hm : Ed[l] ∈ Ed := List.getElem_mem hl
      have hlen := hC.length 0 Ed c2 _ hm
      obtain ⟨u, v, he⟩ := List.length_eq_two.1 hlen
      rw [he] at hm
      obtain ⟨pp, q, a1, a2, a3, a4, a5, a6⟩ := (c4 u v).1 hm
      have := rank_line hpos hwide a1 a2 a3
      obtain rfl : v = u + 1 := by omega
      exact ⟨u, by rw [List.getElem?_eq_getElem hl, he], a6 ▸ rank_lt a2⟩
    have hF := Fact.mk hS.prime
    refine CechInj.of_forest hS hD0 hcols (fun l => (Ed.getD l []).getD 0 0) fun l hl => ?_
    obtain ⟨u, hu, hu'⟩ := hedge l hl
    have el : (Ed.getD l []).getD 0 0 = u := by simp [List.getD_eq_getElem?_getD, hu]
    rw [el]
    refine ⟨by rw [h0]; omega, ?_, fun l' hl' hne hz => ?_⟩
    · unfold Mat.z
      rw [(d4 l u (u + 1) hu).1]
      simp
    · obtain ⟨u', hv, hv'⟩ := hedge l' hl'
      have el' : (Ed.getD l' []).getD 0 0 = u' := by simp [List.getD_eq_getElem?_getD, hv]
      rw [el']
      by_contra hc
      have hne' : u ≠ u' := by
        rintro rfl
        refine hne ?_
        have g1 := (List.getElem?_eq_some_iff.1 hu)
        have g2 := (List.getElem?_eq_some_iff.1 hv)
        exact (List.Nodup.getElem_inj_iff c3).1 (g2.2.trans g1.2.symm)
      refine hz ?_
      unfold Mat.z
      rw [(d4 l' u' (u' + 1) hv).2.2 u hne' (by omega)]
      simp

end

end Permaviss
