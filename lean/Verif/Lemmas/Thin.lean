import Verif.Lemmas.StripLine
import Verif.Spec.Thin

/-!
# Covers without triple intersections

When no point lies in three cubes next to each other, the columns of the spectral sequence from the third one
are zero, and the cubes with a given simplex form a line, so that the Čech differential from the intersections
to the cubes is injective.
-/

namespace Permaviss

open Finset

attribute [-instance] instMulZeroClassOfSemiring

section

variable {α : Type} [LinearOrder α] [Zero α] {rnd : α → α} {E : SSEnv α} {ρ : List ℕ → α}

/-- The Čech differential is injective when for each simplex the intersections with the simplex are the edges
of a forest. -/
theorem CechInj.of_forests (h : SSOK rnd E ρ) {D : Mat} (hD : E.nerveDiff[0]? = some D)
    (hn : 1 < E.columns.length) (low : ℕ → ℕ)
    (hlow : ∀ l < E.spx 1, low l < E.spx 0 ∧ D.z E.p (low l) l ≠ 0)
    (hone : ∀ deg ≤ E.rows, ∀ s, ∀ l < E.spx 1, s ∈ E.G 1 l deg → ∀ l' < E.spx 1, s ∈ E.G 1 l' deg →
      l' ≠ l → D.z E.p (low l) l' ≠ 0 → low l' < low l) : E.CechInj ρ D := by
  have := Fact.mk h.prime
  intro deg hdeg t c hc hz
  have hin : ∀ l < E.spx 1, ∀ s, E.gl 1 l deg (c l) s ≠ 0 → s ∈ E.G 1 l deg := by
    intro l hl s hs
    by_contra hns
    exact hs (toChain_not_mem _ hns)
  have key : ∀ s m, ∀ l < E.spx 1, low l = m → E.gl 1 l deg (c l) s = 0 := by
    intro s m
    induction m using Nat.strong_induction_on with
    | _ m ih =>
    intro l hl hm
    by_contra hne
    have hsl := hin l hl s hne
    obtain ⟨h1, h2⟩ := hlow l hl
    have hs := DFunLike.congr_fun (congrArg (E.gl 0 (low l) deg) (hz (low l) h1)) s
    unfold SSEnv.cechSum at hs
    rw [map_zero, map_sum, Finsupp.finset_sum_apply, Finset.sum_eq_single l] at hs
    · rw [gl_cechOf h hD hn hdeg h1 hl, Finsupp.smul_apply, smul_eq_mul, Finsupp.zero_apply,
        mul_eq_zero] at hs
      rcases hs with hs | hs
      · exact absurd hs (mul_ne_zero (pow_ne_zero _ (neg_ne_zero.2 one_ne_zero)) h2)
      · exact hne hs
    · intro l' hl' hne'
      have hl'' := mem_range.1 hl'
      rw [gl_cechOf h hD hn hdeg h1 hl'', Finsupp.smul_apply, smul_eq_mul]
      by_cases hd : D.z E.p (low l) l' = 0
      · rw [hd, mul_zero, zero_mul]
      · by_cases hg : E.gl 1 l' deg (c l') s = 0
        · rw [hg, mul_zero]
        · exact absurd (ih _ (hm ▸ hone deg hdeg s l hl hsl l' hl'' (hin l' hl'' s hg) hne' hd) l' hl'' rfl) hg
    · intro hc; exact absurd (mem_range.2 hl) hc
  intro l hl
  funext i
  by_contra hi
  obtain ⟨s, hsi, -⟩ := hc l hl i hi
  have hil := (List.getElem?_eq_some_iff.1 hsi).1
  have := toChain_apply (h.G_nodup hn hl deg) (c l) hil
  change E.gl 1 l deg (c l) _ = _ at this
  rw [key _ _ l hl rfl] at this
  exact hi this.symm

/-- Columns whose pieces have no points are zero. -/
theorem firstBars_of_noPoints (h : SSOK rnd E ρ) {n : ℕ} (hn : n < E.columns.length)
    (h0 : ∀ k < E.spx n, ∀ pts, E.pts n k = .ok pts → pts = []) (deg : ℕ) : E.firstBars deg n = [] := by
  by_cases hdeg : deg < E.rows
  · by_contra hne
    obtain ⟨b, hb⟩ := List.exists_mem_of_ne_nil _ hne
    obtain ⟨l, hl, s, hs, -⟩ := h.birth_radius hn hdeg hb
    obtain ⟨o, pts, ho, hpts, -⟩ := h.piece n hn l hl
    obtain ⟨m1, m2, m3, m4⟩ := (h.mem n hn l hl pts hpts deg hdeg.le s).1 hs
    rw [h0 l hl pts hpts] at m3
    cases s with
    | nil => simp at m1
    | cons v s => exact absurd (m3 v (by simp)) (by simp)
  · obtain ⟨c, hc, hlen, hcol⟩ := h.column n hn
    unfold SSEnv.firstBars
    rw [hc]
    dsimp only
    unfold addOutputFirst at hcol
    split at hcol
    · rw [← Except.ok.inj hcol]
      dsimp only
      rw [List.getD_eq_getElem?_getD, List.getElem?_replicate, if_neg hdeg]
      rfl
    · rw [bind_ok] at hcol
      obtain ⟨hs, h1, hcol⟩ := hcol
      rw [← Except.ok.inj hcol]
      dsimp only
      have := (mapM_ok_spec h1).1
      rw [List.length_range] at this
      rw [List.getD_eq_getElem?_getD, List.getElem?_eq_none (by rw [List.length_map]; omega)]
      rfl

end

/-- Replace one coordinate of a position. -/
theorem isPos_set {ds p : List ℕ} (hp : IsPos ds p) {i x : ℕ} (hx : x < ds.getD i 0) : IsPos ds (p.set i x) := by
  obtain ⟨h1, h2⟩ := isPos_iff.1 hp
  refine isPos_iff.2 ⟨by simpa using h1, fun j hj => ?_⟩
  by_cases hij : i = j
  · subst hij
    rw [List.getD_eq_getElem?_getD, List.getElem?_set, if_pos rfl, if_pos (by omega)]
    exact hx
  · have := h2 j hj
    rw [List.getD_eq_getElem?_getD, List.getElem?_set_ne hij, ← List.getD_eq_getElem?_getD]
    exact this

theorem getD_set_eq {p : List ℕ} {i j x : ℕ} (hi : i < p.length) :
    (p.set i x).getD j 0 = if i = j then x else p.getD j 0 := by
  rw [List.getD_eq_getElem?_getD, List.getElem?_set]
  split
  · next h => subst h; simp [hi]
  · rw [← List.getD_eq_getElem?_getD]

theorem pos_ext {ds p q : List ℕ} (hp : IsPos ds p) (hq : IsPos ds q)
    (h : ∀ i < ds.length, p.getD i 0 = q.getD i 0) : p = q := by
  have h1 := (isPos_iff.1 hp).1
  have h2 := (isPos_iff.1 hq).1
  apply List.ext_getElem (by omega)
  intro i i1 i2
  have := h i (by omega)
  rwa [List_getD_eq_getElem _ _ i1, List_getD_eq_getElem _ _ i2] at this

/-- Positions below in the order of coordinates come before. -/
theorem rank_le_of_le {ds p q : List ℕ} (hp : IsPos ds p) (hq : IsPos ds q)
    (h : ∀ i < ds.length, p.getD i 0 ≤ q.getD i 0) : rank ds p ≤ rank ds q := by
  induction ds generalizing p q with
  | nil => simp [rank]
  | cons d ds ih =>
    cases hp with
    | @cons a _ p' _ hpd hp' =>
    cases hq with
    | @cons b _ q' _ hqd hq' =>
    simp only [rank]
    have h0 : a ≤ b := by simpa using h 0 (by simp)
    have := ih hp' hq' fun i hi => by simpa using h (i + 1) (by simpa using hi)
    have := Nat.mul_le_mul_right ds.prod h0
    omega

section

variable {K : Type} [Field K] [LinearOrder K] [IsStrictOrderedRing K]

/-- If no three cubes next to each other share a point, two cubes next to a third one which contain a common
point of it are on opposite sides of it. -/
theorem opposite_of_noTriple {dim : ℕ} {lo : ℕ → K} {side overlap : K} (hs : 0 < side) {div : List ℕ}
    (hdl : div.length = dim) {pt : List K}
    (hN : ∀ a b c, IsPos div a → IsPos div b → IsPos div c → a ≠ b → a ≠ c → b ≠ c → Adjacent a b →
      Adjacent a c → Adjacent b c → InCube dim lo side overlap a pt → InCube dim lo side overlap b pt →
      ¬ InCube dim lo side overlap c pt) {k b c : List ℕ} (hk : IsPos div k) (hb : IsPos div b)
    (hc : IsPos div c) (hkb : k ≠ b) (hkc : k ≠ c) (hbc : b ≠ c) (ab : Adjacent k b) (ac : Adjacent k c)
    (ik : InCube dim lo side overlap k pt) (ib : InCube dim lo side overlap b pt)
    (ic : InCube dim lo side overlap c pt) :
    (∀ i < dim, b.getD i 0 ≤ k.getD i 0) ∨ (∀ i < dim, c.getD i 0 ≤ k.getD i 0) := by
  obtain ⟨k1, k2⟩ := isPos_iff.1 hk
  obtain ⟨b1, b2⟩ := isPos_iff.1 hb
  obtain ⟨c1, c2⟩ := isPos_iff.1 hc
  -- a neighbour with a common point differs in one coordinate
  have one : ∀ b, IsPos div b → k ≠ b → Adjacent k b → InCube dim lo side overlap b pt → ∀ i < dim,
      b.getD i 0 ≠ k.getD i 0 → ∀ j < dim, j ≠ i → b.getD j 0 = k.getD j 0 := by
    intro b hb hkb ab ib i hi hbi j hj hji
    by_contra hbj
    obtain ⟨b1, b2⟩ := isPos_iff.1 hb
    have hbl : j < b.length := by omega
    have hg := fun m => getD_set_eq (p := b) (i := j) (j := m) (x := k.getD j 0) hbl
    have hm : IsPos div (b.set j (k.getD j 0)) := isPos_set hb (k2 j (by omega))
    have hab := (adjacent_iff_getD (ds := div) (by omega) (by omega)).1 ab
    refine hN k b (b.set j (k.getD j 0)) hk hb hm hkb ?_ ?_ ab ?_ ?_ ik ib ?_
    · intro e
      have := hg i
      rw [← e, if_neg hji] at this
      exact hbi this.symm
    · intro e
      have := hg j
      rw [← e, if_pos rfl] at this
      exact hbj this
    · refine (adjacent_iff_getD (ds := div) (by omega) (isPos_iff.1 hm).1).2 fun m hm => ?_
      rw [hg m]
      split
      · next e => subst e; omega
      · exact hab m hm
    · refine (adjacent_iff_getD (ds := div) (by omega) (isPos_iff.1 hm).1).2 fun m hm => ?_
      rw [hg m]
      split
      · next e => subst e; have := hab j hm; omega
      · omega
    · refine inCube_between hs ik ib fun m hm => ?_
      rw [hg m]
      split
      · next e => subst e; omega
      · omega
  have hab := (adjacent_iff_getD (ds := div) (by omega) (by omega)).1 ab
  have hac := (adjacent_iff_getD (ds := div) (by omega) (by omega)).1 ac
  obtain ⟨i, hi, hbi⟩ : ∃ i < dim, b.getD i 0 ≠ k.getD i 0 := by
    by_contra hcon
    push Not at hcon
    exact hkb (pos_ext hk hb fun i hi => (hcon i (by omega)).symm)
  have hone := one b hb hkb ab ib i hi hbi
  -- the two neighbours are not next to each other
  have hnot : ¬ Adjacent b c := fun hbc' => hN k b c hk hb hc hkb hkc hbc ab ac hbc' ik ib ic
  rw [adjacent_iff_getD (ds := div) (by omega) (by omega)] at hnot
  push Not at hnot
  obtain ⟨m, hm, hbcm⟩ := hnot
  have hmi : m = i := by
    by_contra hmi
    have e := hone m (by omega) hmi
    have := hac m hm
    rw [e] at hbcm
    exact absurd (hbcm (by omega)) (by omega)
  subst hmi
  have hcm : c.getD m 0 ≠ k.getD m 0 := by
    intro e
    have := hab m hm
    rw [e] at hbcm
    exact absurd (hbcm (by omega)) (by omega)
  have hone' := one c hc hkc ac ic m (by omega) hcm
  have h1 := hab m hm
  have h2 := hac m hm
  by_cases hle : b.getD m 0 ≤ k.getD m 0
  · left
    intro j hj
    by_cases hjm : j = m
    · rw [hjm]; exact hle
    · rw [hone j hj hjm]
  · right
    intro j hj
    by_cases hjm : j = m
    · rw [hjm]
      by_contra hc'
      exact absurd (hbcm (by omega)) (by omega)
    · rw [hone' j hj hjm]

variable [FloorRing K]

/-- The spectral sequence of a cover without triple intersections. -/
theorem createEnv_thin {p : ℕ} (hp : p.Prime) {pdist : List (List K) → List (List K)}
    {d : List K → List K → K} (hdist : IsDistTable pdist d) {argsort : List K → List Nat}
    (ha : IsArgsort argsort) {rnd : K → K} {maxR : K} (hmax : 0 < maxR) {maxDim : ℕ}
    {maxDiv dim : Nat} {overlap : K} {cloud : List (List K)} {lo hi : Nat → K}
    {side : K} (hne : cloud ≠ []) (hdim : 0 < dim) (hm : 0 < maxDiv)
    (hbox : IsBox maxDiv dim cloud lo hi side) (hs : 0 < side) (hw : ∀ i < dim, lo i < hi i)
    (hthin : NoTriple dim lo hi side overlap cloud) {E : SSEnv K}
    (hE : createEnv pdist argsort rnd maxR maxDim maxDiv overlap dim cloud p = .ok E) :
    0 < E.spx 0 ∧ (∀ n deg, 2 ≤ n → E.firstBars deg n = []) ∧
      ∀ D, E.nerveDiff[0]? = some D → E.CechInj (diam d fun v => cloud.getD v []) D := by
  obtain ⟨E', div, C, L, h1, hS, h3, h4, h5, h6, h7, h8, hdiv, hN, hC, hD, hspx, hL, hcube, hpts, -⟩ :=
    createEnv_ok hp hdist ha rnd hmax maxDim overlap hne hdim hm hbox hs
  rw [hE] at h1
  obtain rfl := Except.ok.inj h1
  have hdl := hdiv.1
  have hpos : ∀ x ∈ div, 0 < x := by
    intro x hx
    obtain ⟨i, hi, rfl⟩ := List.getElem_of_mem hx
    have := (isDiv_pos_iff hdiv (d := i) (by omega) hs).2 (hw i (by omega))
    rwa [List_getD_eq_getElem _ _ hi] at this
  have hcols : 1 < E.columns.length := by
    rw [h7]; exact Nat.one_lt_two_pow (by omega)
  have h0 : E.spx 0 = div.prod := by rw [hspx]; simp [simplicesOf]
  have hthin' : ∀ pt ∈ cloud, ∀ a b c, IsPos div a → IsPos div b → IsPos div c → a ≠ b → a ≠ c → b ≠ c →
      Adjacent a b → Adjacent a c → Adjacent b c → InCube dim lo side overlap a pt →
      InCube dim lo side overlap b pt → ¬ InCube dim lo side overlap c pt :=
    fun pt hpt a b c ha hb hc n1 n2 n3 a1 a2 a3 => hthin div hdiv a b c ha hb hc n1 n2 n3 a1 a2 a3 pt hpt
  -- the points of a cube
  have hcube' : ∀ pos, IsPos div pos → ∀ i, i ∈ L.getD (rank div pos) [] → i < cloud.length ∧
      InCube dim lo side overlap pos (cloud.getD i []) := by
    intro pos hpos' i hi
    obtain ⟨l, l1, -, l3⟩ := hcube pos hpos'
    rw [List.getD_eq_getElem?_getD, l1] at hi
    exact (l3 i).1 hi
  refine ⟨?_, ?_, ?_⟩
  · rw [h0]
    exact Nat.pos_of_ne_zero fun hc => by
      rw [List.prod_eq_zero_iff] at hc
      exact absurd (hpos 0 hc) (by omega)
  · intro n deg hn
    by_cases hnc : n < E.columns.length
    swap
    · unfold SSEnv.firstBars
      rw [List.getElem?_eq_none (by omega)]
    refine firstBars_of_noPoints hS hnc (fun k hk pts hpk => ?_) deg
    rw [hspx] at hk
    have hget := List.getElem?_eq_getElem hk
    have hmem := List.getElem_mem hk
    set s := (simplicesOf div.prod C n)[k] with hsd
    obtain ⟨C', c1, -, c2⟩ := C41_nerve_simplices hpos
    rw [hN] at c1
    obtain rfl : C = C' := congrArg Prod.snd (Except.ok.inj c1)
    obtain ⟨m, rfl⟩ : ∃ m, n = m + 1 := ⟨n - 1, by omega⟩
    simp only [simplicesOf] at hmem
    rw [List.getD_eq_getElem?_getD] at hmem
    cases hCm : C[m]? with
    | none => rw [hCm] at hmem; simp at hmem
    | some S =>
    rw [hCm] at hmem
    obtain ⟨s1, s2, ps, s3, s4, s5⟩ := ((c2 m S hCm).2 s).1 hmem
    obtain ⟨pts', e1, -, e3⟩ := hpts (m + 1) hnc k s hget
    rw [hpk] at e1
    obtain rfl := Except.ok.inj e1
    rw [List.eq_nil_iff_forall_not_mem]
    intro i hi
    rw [e3 i] at hi
    have hpl : ps.length = m + 2 := by rw [s4, List.length_map] at s1; exact s1
    match ps, hpl, s3, s4, s5 with
    | a :: b :: c :: ps, _, s3, s4, s5 =>
      rw [s4] at s2 hi
      simp only [List.map_cons, List.pairwise_cons, List.mem_cons] at s2
      have pa := s3 a (by simp)
      have pb := s3 b (by simp)
      have pc := s3 c (by simp)
      obtain ⟨hil, ia⟩ := hcube' a pa i (hi _ (by simp))
      obtain ⟨-, ib⟩ := hcube' b pb i (hi _ (by simp))
      obtain ⟨-, ic⟩ := hcube' c pc i (hi _ (by simp))
      have r1 := s2.1 (rank div b) (by simp)
      have r2 := s2.1 (rank div c) (by simp)
      have r3 := s2.2.1 (rank div c) (by simp)
      exact hthin' _ (getD_mem' hil) a b c pa pb pc (by rintro rfl; omega) (by rintro rfl; omega)
        (by rintro rfl; omega) (s5 a (by simp) b (by simp)) (s5 a (by simp) c (by simp))
        (s5 b (by simp) c (by simp)) ia ib ic
    | [_, _], hl, _, _, _ => simp at hl; omega
    | [_], hl, _, _, _ => simp at hl
    | [], hl, _, _, _ => simp at hl
  · intro D hD0
    obtain ⟨C', Ed, c1, c2, c3, c4⟩ := C41_nerve_edges hpos
    rw [hN] at c1
    obtain rfl : C = C' := congrArg Prod.snd (Except.ok.inj c1)
    have hEd : simplicesOf div.prod C 1 = Ed := by
      simp [simplicesOf, List.getD_eq_getElem?_getD, c2]
    have hs1 : E.spx 1 = Ed.length := by rw [hspx, hEd]
    obtain ⟨-, -, -, hDD, -⟩ := C19_differentials_boundary hp.two_le hC _ _ hD
    obtain ⟨D', d1, d2, d3, d4⟩ := hDD Ed c2
    rw [hD0] at d1
    obtain rfl := Option.some.inj d1
    have hedge : ∀ l < E.spx 1, ∃ a b, Ed[l]? = some [rank div a, rank div b] ∧ IsPos div a ∧ IsPos div b ∧
        Adjacent a b ∧ rank div a < rank div b := by
      intro l hl
      rw [hs1] at hl
      have hm : Ed[l] ∈ Ed := List.getElem_mem hl
      have hlen := hC.length 0 Ed c2 _ hm
      obtain ⟨u, v, he⟩ := List.length_eq_two.1 hlen
      rw [he] at hm
      obtain ⟨pp, q, a1, a2, a3, a4, a5, a6⟩ := (c4 u v).1 hm
      exact ⟨pp, q, by rw [List.getElem?_eq_getElem hl, he, a5, a6], a1, a2, a3, by omega⟩
    have hF := Fact.mk hS.prime
    refine CechInj.of_forests hS hD0 hcols (fun l => (Ed.getD l []).getD 0 0) ?_ ?_
    · intro l hl
      obtain ⟨a, b, hab, pa, pb, -⟩ := hedge l hl
      have el : (Ed.getD l []).getD 0 0 = rank div a := by simp [List.getD_eq_getElem?_getD, hab]
      rw [el]
      refine ⟨by rw [h0]; exact rank_lt pa, ?_⟩
      unfold Mat.z
      rw [(d4 l _ _ hab).1]
      simp
    · intro deg hdeg s l hl hsl l' hl' hsl' hne' hz
      obtain ⟨a, b, hab, pa, pb, ab, hlt⟩ := hedge l hl
      obtain ⟨a', b', hab', pa', pb', ab', hlt'⟩ := hedge l' hl'
      have el : (Ed.getD l []).getD 0 0 = rank div a := by simp [List.getD_eq_getElem?_getD, hab]
      have el' : (Ed.getD l' []).getD 0 0 = rank div a' := by simp [List.getD_eq_getElem?_getD, hab']
      rw [el] at hz
      rw [el, el']
      by_contra hc
      -- the cube is the first one of both intersections
      have hcase : rank div a = rank div a' := by
        by_contra hne
        refine hz ?_
        unfold Mat.z
        rw [(d4 l' _ _ hab').2.2 _ hne (by omega)]
        simp
      have haa : a = a' := by
        rw [← posAt_rank pa, hcase, posAt_rank pa']
      subst haa
      have hbb : b ≠ b' := by
        rintro rfl
        refine hne' ?_
        have g1 := (List.getElem?_eq_some_iff.1 hab)
        have g2 := (List.getElem?_eq_some_iff.1 hab')
        exact (List.Nodup.getElem_inj_iff c3).1 (g2.2.trans g1.2.symm)
      -- a vertex of the simplex
      have hv : ∀ l < E.spx 1, ∀ a b, Ed[l]? = some [rank div a, rank div b] → IsPos div a → IsPos div b →
          s ∈ E.G 1 l deg → ∀ v ∈ s, v < cloud.length ∧ InCube dim lo side overlap a (cloud.getD v []) ∧
            InCube dim lo side overlap b (cloud.getD v []) := by
        intro l hl a b hab pa pb hsl v hv
        obtain ⟨pts, e1, -, e3⟩ := hpts 1 hcols l _ (by rw [hEd]; exact hab)
        obtain ⟨-, -, m3, -⟩ := (hS.mem 1 hcols l hl pts e1 deg hdeg s).1 hsl
        have := (e3 v).1 (m3 v hv)
        obtain ⟨i1, i2⟩ := hcube' a pa v (this _ (by simp))
        exact ⟨i1, i2, (hcube' b pb v (this _ (by simp))).2⟩
      obtain ⟨pts, e1, -⟩ := hpts 1 hcols l _ (by rw [hEd]; exact hab)
      obtain ⟨m1, -⟩ := (hS.mem 1 hcols l hl pts e1 deg hdeg s).1 hsl
      obtain ⟨v, hvs⟩ : ∃ v, v ∈ s := List.exists_mem_of_length_pos (by omega)
      obtain ⟨w1, w2, w3⟩ := hv l hl a b hab pa pb hsl v hvs
      obtain ⟨-, -, w4⟩ := hv l' hl' a b' hab' pa pb' hsl' v hvs
      rcases opposite_of_noTriple hs hdl (hthin' _ (getD_mem' (x := []) w1)) pa pb pb' (by rintro rfl; omega)
        (by rintro rfl; omega) hbb ab ab' w2 w3 w4 with h | h
      · have := rank_le_of_le pb pa fun i hi => h i (by omega)
        omega
      · have := rank_le_of_le pb' pa fun i hi => h i (by omega)
        omega

end

end Permaviss
