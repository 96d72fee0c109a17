import Verif.Lemmas.RowTotal
import Verif.Props.Components

/-!
# `create_MV_ss` with `max_dim = 1` (C68)
-/

namespace Permaviss

open Finset

/-- The numbers that can be ends of bars: `0`, `max_r` and the distances between points of the cloud. -/
def BarEnd {K : Type} [Zero K] (d : List K → List K → K) (maxR : K) (cloud : List (List K)) (x : K) : Prop :=
  x = 0 ∨ x = maxR ∨ ∃ a ∈ cloud, ∃ b ∈ cloud, x = d a b

section

variable {α : Type} [LinearOrder α] [Zero α]

/-- Deaths are radii of simplices, or the largest radius. -/
theorem death_mem {p : ℕ} {D : List Mat} {R : List (List α)} {maxRad : α} (hp : p.Prime) {rnd : α → α}
    (F : FiltComplex p D R maxRad) {out : PHOut α}
    (h : persistentHomology rnd p (R.getD 0 []).length D R maxRad = .ok out)
    {e : ℕ} {B : Basis α} (hB : out.hom[e]? = some B) :
    ∀ b ∈ B.barcode, b.2 = maxRad ∨ b.2 ∈ R.getD (e + 1) [] := by
  obtain ⟨P, rts, fin, levels, H, S⟩ := run_spec hp rnd F h
  obtain ⟨keys, hk, hok⟩ := hom_spec S hB
  intro b hb
  rw [hok.bars, List.mem_map] at hb
  obtain ⟨j, hj, rfl⟩ := hb
  simp only [keyBar, dR]
  split
  · next hP => exact Or.inr (getD_mem' (H.kap_spec F hP).1)
  · exact Or.inl rfl

theorem SSOK.death_radius {rnd : α → α} {E : SSEnv α} {ρ : List ℕ → α} (h : SSOK rnd E ρ) {n deg : ℕ}
    (hn : n < E.columns.length) (hdeg : deg < E.rows) {b : α × α} (hb : b ∈ E.firstBars deg n) :
    b.2 = E.maxR ∨ ∃ l < E.spx n, ∃ s ∈ E.G n l (deg + 1), b.2 = ρ s := by
  obtain ⟨t, ht⟩ := List.mem_iff_getElem?.1 hb
  obtain ⟨l, hl, hom, a, hh, ha, hba, -⟩ := h.firstBars_class hn hdeg ht
  obtain ⟨o, pts, v, im, hom', L⟩ := h.liftData hn hl hdeg.le
  obtain rfl : hom = hom' := Except.ok.inj (hh.symm.trans L.hom0)
  rcases death_mem h.prime L.ok.filt L.ok.run L.hom_get b (List.mem_of_getElem? hba) with e | hm
  · exact Or.inl e
  · right
    rw [L.ok.rad (deg + 1) (le_trans hdeg L.ok.levels)] at hm
    obtain ⟨s, hs, e⟩ := List.mem_map.1 hm
    refine ⟨l, hl, s, ?_, e.symm⟩
    have : E.G n l (deg + 1) = o.glob pts (deg + 1) := by simp only [SSEnv.G, L.piece, L.pts_eq]
    rwa [this]

theorem diam_cases {Pt : Type} (d : Pt → Pt → α) (pt : ℕ → Pt) (s : List ℕ) :
    diam d pt s = 0 ∨ ∃ u ∈ s, ∃ v ∈ s, u < v ∧ d (pt v) (pt u) = diam d pt s := by
  have key : ∀ l : List α, l.foldr max 0 = 0 ∨ l.foldr max 0 ∈ l := by
    intro l
    induction l with
    | nil => exact Or.inl rfl
    | cons x l ih =>
      rw [List.foldr_cons]
      rcases le_total (l.foldr max 0) x with hx | hx
      · rw [max_eq_left hx]; exact Or.inr (by simp)
      · rw [max_eq_right hx]
        exact ih.imp id (List.mem_cons_of_mem _)
  rcases key (s.flatMap fun u => (s.filter fun v => decide (u < v)).map fun v => d (pt v) (pt u)) with h | h
  · exact Or.inl h
  · exact Or.inr (mem_diam.1 h)

end

section

variable {K : Type} [Field K] [LinearOrder K] [FloorRing K] [IsStrictOrderedRing K]
  {pdist : List (List K) → List (List K)} {d : List K → List K → K} {argsort : List K → List Nat}
  {rnd : K → K} {maxR : K} {maxDim maxDiv dim : ℕ} {overlap : K} {cloud : List (List K)} {p : ℕ}
  {lo hi : ℕ → K} {side : K}

/-- The ends of the bars, for any cover; see `C68_bar_ends`. -/
theorem CoveredEnv.bar_ends {E : SSEnv K}
    (h : CoveredEnv pdist d argsort rnd maxR maxDim dim cloud p E)
    (deg : ℕ) (hdeg : deg < maxDim) (n : ℕ) :
    ∀ b ∈ E.firstBars deg n, BarEnd d maxR cloud b.1 ∧ BarEnd d maxR cloud b.2 := by
  obtain ⟨hOK, h1, h2, h3, h4⟩ := h.facts
  obtain ⟨D0, hC, hfaces⟩ := h.cover
  intro b hb
  have hn : n < E.columns.length := by
    by_contra hc
    unfold SSEnv.firstBars at hb
    rw [List.getElem?_eq_none (by omega)] at hb
    simp at hb
  have hsub : ∀ n < E.columns.length, ∀ l < E.spx n, ∃ k < E.spx 0, ∀ pts pts',
      E.pts 0 k = .ok pts → E.pts n l = .ok pts' → pts' ⊆ pts := by
    intro n
    induction n with
    | zero =>
      intro _ l hl
      refine ⟨l, hl, fun pts pts' e1 e2 => ?_⟩
      rw [e1] at e2
      rw [Except.ok.inj e2]
      exact fun _ hx => hx
    | succ n ih =>
      intro hn l hl
      obtain ⟨k, hk, hkl⟩ := hfaces n hn l hl
      obtain ⟨m, hm, hmk⟩ := ih (by omega) k hk
      obtain ⟨o, pk, -, hpk, -⟩ := hOK.piece n (by omega) k hk
      exact ⟨m, hm, fun pts pts' e1 e2 _ hx => hmk pts pk e1 hpk (hkl pk pts' hpk e2 hx)⟩
  have hlt : ∀ l < E.spx n, ∀ e ≤ E.rows, ∀ s ∈ E.G n l e, ∀ v ∈ s, v < cloud.length := by
    intro l hl e he s hs
    obtain ⟨k, hk, hkl⟩ := hsub n hn l hl
    obtain ⟨o, pts, -, hpts, -⟩ := hOK.piece 0 (by omega) k hk
    obtain ⟨o', pts', -, hpts', -⟩ := hOK.piece n hn l hl
    obtain ⟨m1, m2, m3, m4⟩ := (hOK.mem n hn l hl pts' hpts' e he s).1 hs
    exact hC.lt k hk e he s ((hOK.mem 0 (by omega) k hk pts hpts e he s).2
      ⟨m1, m2, fun v hv => hkl pts pts' hpts hpts' (m3 v hv), m4⟩)
  have hend : ∀ s : List ℕ, (∀ v ∈ s, v < cloud.length) →
      BarEnd d maxR cloud (diam d (fun v => cloud.getD v []) s) := by
    intro s hs
    rcases diam_cases d (fun v => cloud.getD v []) s with e | ⟨u, hu, v, hv, -, e⟩
    · exact Or.inl e
    · exact Or.inr (Or.inr ⟨_, getD_mem' (hs v hv), _, getD_mem' (hs u hu), e.symm⟩)
  refine ⟨?_, ?_⟩
  · obtain ⟨l, hl, s, hs, e⟩ := hOK.birth_radius hn (by omega) hb
    rw [e]
    exact hend s (hlt l hl deg (by omega) s hs)
  · rcases hOK.death_radius hn (by omega) hb with e | ⟨l, hl, s, hs, e⟩
    · exact Or.inr (Or.inl (e.trans h2))
    · rw [e]
      exact hend s (hlt l hl (deg + 1) (by omega) s hs)

/-- **C68**, the ends of the bars.  The bars of all the pieces, in all degrees, begin and end at `0`, at
`max_r` or at distances between points of the cloud. -/
theorem C68_bar_ends (h : MVInput pdist d argsort maxR maxDiv dim cloud p lo hi side)
    (hw : ∀ i < dim, lo i < hi i) (ho : maxR ≤ overlap)
    (hcoord : ∀ a ∈ cloud, ∀ b ∈ cloud, ∀ i < dim, |a.getD i 0 - b.getD i 0| ≤ d a b) {E : SSEnv K}
    (hE : createEnv pdist argsort rnd maxR maxDim maxDiv overlap dim cloud p = .ok E)
    (deg : ℕ) (hdeg : deg < maxDim) (n : ℕ) :
    ∀ b ∈ E.firstBars deg n, BarEnd d maxR cloud b.1 ∧ BarEnd d maxR cloud b.2 := by
  exact (h.coveredEnv hw ho hcoord hE).bar_ends deg hdeg n

/-- The components, for any cover; see `C61_components_input`. -/
theorem CoveredEnv.components_input {out : MVOut K} (h : CoveredEnv pdist d argsort rnd maxR maxDim dim cloud p out.env)
    (hround : ∀ x y, BarEnd d maxR cloud x → BarEnd d maxR cloud y → rnd x ≤ rnd y → x ≤ y)
    (hrun : out.Run rnd) :
    ∃ B L B', out.persistentHomology[0]? = some B ∧
      localPersistentHomology pdist argsort rnd cloud maxR maxDim p = .ok L ∧
      L.ph.hom[0]? = some B' ∧ B.barcode.Perm B'.barcode := by
  obtain ⟨-, hph⟩ := id hrun
  have h3 := h.rows
  have hrows : 0 < maxDim := by
    by_contra hc
    unfold persistentList at hph
    rw [if_pos (by omega)] at hph
    exact absurd hph (by simp)
  refine h.components hrun ?_
  intro n m a ha b hb x hx y hy
  have ea := h.bar_ends 0 hrows n a ha
  have eb := h.bar_ends 0 hrows m b hb
  refine hround x y ?_ ?_
  · rcases hx with rfl | rfl
    · exact ea.1
    · exact ea.2
  · rcases hy with rfl | rfl
    · exact eb.1
    · exact eb.2

/-- **C61**, with a hypothesis on the input only: rounding must not put two of the numbers `0`, `max_r` and
the distances between points in the wrong order. -/
theorem C61_components_input (h : MVInput pdist d argsort maxR maxDiv dim cloud p lo hi side)
    (hw : ∀ i < dim, lo i < hi i) (ho : maxR ≤ overlap)
    (hcoord : ∀ a ∈ cloud, ∀ b ∈ cloud, ∀ i < dim, |a.getD i 0 - b.getD i 0| ≤ d a b)
    (hround : ∀ x y, BarEnd d maxR cloud x → BarEnd d maxR cloud y → rnd x ≤ rnd y → x ≤ y)
    (out : MVOut K)
    (hrun : createMVss pdist argsort rnd maxR maxDim maxDiv overlap dim cloud p = .ok out) :
    ∃ B L B', out.persistentHomology[0]? = some B ∧
      localPersistentHomology pdist argsort rnd cloud maxR maxDim p = .ok L ∧
      L.ph.hom[0]? = some B' ∧ B.barcode.Perm B'.barcode := by
  exact (h.coveredEnv hw ho hcoord (createMVss_parts hrun).1).components_input hround (createMVss_run hrun)

/-- The case `max_dim = 1`, for any cover; see `C68_max_dim_one`. -/
theorem CoveredEnv.max_dim_one {E : SSEnv K} (h : CoveredEnv pdist d argsort rnd maxR 1 dim cloud p E)
    (hround : ∀ x y, BarEnd d maxR cloud x → BarEnd d maxR cloud y → rnd x ≤ rnd y → x ≤ y) :
    ∃ (out : MVOut K) (B : Basis K) (L : LocalOut K) (B' : Basis K), out.env = E ∧ out.Run rnd ∧
      out.persistentHomology = [B] ∧ localPersistentHomology pdist argsort rnd cloud maxR 1 p = .ok L ∧
      L.ph.hom[0]? = some B' ∧ B.barcode.Perm B'.barcode := by
  obtain ⟨hOK, h1, h2, h3, h4⟩ := h.facts
  have h5 := h.pages
  have h6 := h.numbers
  obtain ⟨D0, hC, hfaces⟩ := h.cover
  have hends := h.bar_ends 0 (by omega)
  obtain ⟨S, hS⟩ := allPages_total hOK hC.cols h3 (by omega) (by
      intro n m a ha b hb x hx y hy
      refine hround x y ?_ ?_
      · rcases hx with rfl | rfl
        · exact (hends n a ha).1
        · exact (hends n a ha).2
      · rcases hy with rfl | rfl
        · exact (hends m b hb).1
        · exact (hends m b hb).2)
    (fun n hn => row_zero_gap hOK (by omega) hn (hfaces n hn)) (z := 0) (by
      intro n hn a ha
      obtain ⟨l, hl, s, hs, e⟩ := hOK.birth_radius hn (by omega) ha
      obtain ⟨o, pts, -, hpts, -⟩ := hOK.piece n hn l hl
      obtain ⟨m1, -⟩ := (hOK.mem n hn l hl pts hpts 0 (by omega) s).1 hs
      rw [e]
      obtain ⟨v, rfl⟩ := List.length_eq_one_iff.1 m1
      simp [diam])
  have hrun : MVOut.Run rnd ⟨E, S, [(S.hom (E.noPages - 1) 0 0).basis]⟩ := by
    refine ⟨by rw [show E.spxNumber.length - 1 = E.columns.length by omega]; exact hS, ?_⟩
    unfold persistentList
    dsimp only
    rw [h3]
    rfl
  obtain ⟨B, L, B', e1, e2, e3, e4⟩ := CoveredEnv.components_input
    (out := ⟨E, S, [(S.hom (E.noPages - 1) 0 0).basis]⟩) h hround hrun
  obtain rfl := Option.some.inj e1
  exact ⟨_, _, L, B', rfl, hrun, rfl, e2, e3, e4⟩

/-- **C68.** With `max_dim = 1`, `create_MV_ss` always returns: none of the exceptions in the computation
of the pages is raised.  The result is a single barcode, the barcode in degree zero of the ordinary
computation on the whole cloud, up to the order of the bars. -/
theorem C68_max_dim_one (h : MVInput pdist d argsort maxR maxDiv dim cloud p lo hi side)
    (hw : ∀ i < dim, lo i < hi i) (ho : maxR ≤ overlap)
    (hcoord : ∀ a ∈ cloud, ∀ b ∈ cloud, ∀ i < dim, |a.getD i 0 - b.getD i 0| ≤ d a b)
    (hround : ∀ x y, BarEnd d maxR cloud x → BarEnd d maxR cloud y → rnd x ≤ rnd y → x ≤ y) :
    ∃ out B L B', createMVss pdist argsort rnd maxR 1 maxDiv overlap dim cloud p = .ok out ∧
      out.persistentHomology = [B] ∧
      localPersistentHomology pdist argsort rnd cloud maxR 1 p = .ok L ∧
      L.ph.hom[0]? = some B' ∧ B.barcode.Perm B'.barcode := by
  obtain ⟨E, -, -, -, hE, -⟩ := createEnv_ok h.prime h.dist h.sort rnd h.radius
    1 overlap h.points h.dim_pos h.div_pos h.box h.side_pos
  obtain ⟨out, B, L, B', rfl, e1, e2⟩ := (h.coveredEnv hw ho hcoord hE).max_dim_one hround
  refine ⟨out, B, L, B', ?_, e2⟩
  unfold createMVss
  rw [hE, ok_bind, e1.pages, ok_bind, e1.list]
  rfl

/-- **C68**, the parameters of the cover.  With `max_dim = 1` two runs with different numbers of divisions
and different overlaps give the same bars. -/
theorem C68_cover_irrelevant {maxDiv' : ℕ} {overlap' : K} {lo' hi' : ℕ → K} {side' : K}
    (h : MVInput pdist d argsort maxR maxDiv dim cloud p lo hi side)
    (h' : MVInput pdist d argsort maxR maxDiv' dim cloud p lo' hi' side')
    (hw : ∀ i < dim, lo i < hi i) (hw' : ∀ i < dim, lo' i < hi' i)
    (ho : maxR ≤ overlap) (ho' : maxR ≤ overlap')
    (hcoord : ∀ a ∈ cloud, ∀ b ∈ cloud, ∀ i < dim, |a.getD i 0 - b.getD i 0| ≤ d a b)
    (hround : ∀ x y, BarEnd d maxR cloud x → BarEnd d maxR cloud y → rnd x ≤ rnd y → x ≤ y) :
    ∃ out B out' B', createMVss pdist argsort rnd maxR 1 maxDiv overlap dim cloud p = .ok out ∧
      out.persistentHomology = [B] ∧
      createMVss pdist argsort rnd maxR 1 maxDiv' overlap' dim cloud p = .ok out' ∧
      out'.persistentHomology = [B'] ∧ B.barcode.Perm B'.barcode := by
  obtain ⟨out, B, L, C, r1, r2, r3, r4, r5⟩ := C68_max_dim_one h hw ho hcoord hround
  obtain ⟨out', B', L', C', s1, s2, s3, s4, s5⟩ := C68_max_dim_one h' hw' ho' hcoord hround
  rw [r3] at s3
  obtain rfl := Except.ok.inj s3
  rw [r4] at s4
  obtain rfl := Option.some.inj s4
  exact ⟨out, B, out', B', r1, r2, s1, s2, r5.trans s5.symm⟩

end

/-- The hypotheses are met by the four corners of a rectangle, with `max_r = 6`, `overlap = 7` and no
rounding; the bars are `(0, 3)` twice, `(0, 4)` and `(0, 6)`. -/
example : MVInput rectDist rectD stableArgsort 6 2 2 rectCloud 5 (fun _ => 0) (fun d => 3 + d) 2 ∧
    (∀ i : ℕ, i < 2 → (0 : ℚ) < 3 + (i : ℚ)) ∧ (6 : ℚ) ≤ 7 ∧
    (∀ a ∈ rectCloud, ∀ b ∈ rectCloud, ∀ i < 2, |a.getD i 0 - b.getD i 0| ≤ rectD a b) ∧
    (∀ x y, BarEnd rectD 6 rectCloud x → BarEnd rectD 6 rectCloud y → id x ≤ id y → x ≤ y) ∧
    ((createMVss rectDist stableArgsort id 6 1 2 7 2 rectCloud 5).map fun o =>
      o.persistentHomology.map fun B => B.barcode) = .ok [[(0, 6), (0, 4), (0, 3), (0, 3)]] := by
  refine ⟨rect_input, ?_, by norm_num, ?_, fun _ _ _ _ h => h, ?_⟩
  · intro i _
    have : (0 : ℚ) ≤ (i : ℚ) := Nat.cast_nonneg i
    linarith
  · decide +kernel
  · decide +kernel

end Permaviss
