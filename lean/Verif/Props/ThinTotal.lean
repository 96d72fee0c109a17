import Verif.Lemmas.ThinTotal
import Verif.Props.Total
import Verif.Props.Thin
import Verif.Props.FewPoints

/-!
# `create_MV_ss` returns for clouds without points in three neighbouring cubes (C69)
-/

namespace Permaviss

open Finset

section

variable {K : Type} [Field K] [LinearOrder K] [FloorRing K] [IsStrictOrderedRing K]
  {pdist : List (List K) → List (List K)} {d : List K → List K → K} {argsort : List K → List Nat}
  {rnd : K → K} {maxR : K} {maxDim maxDiv dim : ℕ} {overlap : K} {cloud : List (List K)} {p : ℕ}
  {lo hi : ℕ → K} {side : K}

/-- Intersections with at most `2 e + 1` points have no classes in degree `e`. -/
theorem shared_firstBars (h : MVInput pdist d argsort maxR maxDiv dim cloud p lo hi side)
    (hw : ∀ i < dim, lo i < hi i) {e : ℕ} (h1 : 1 ≤ e) (he : e < maxDim)
    (hshare : SharedAtMost (2 * e + 1) dim lo hi side overlap cloud) {E : SSEnv K}
    (hE : createEnv pdist argsort rnd maxR maxDim maxDiv overlap dim cloud p = .ok E) : E.firstBars e 1 = [] := by
  obtain ⟨E', div, C, L, hE', hS, h3, h4, h5, h6, h7, h8, hdiv, hN, hC, hD, hspx, hL, hcube, hpts, hloc⟩ :=
    createEnv_ok h.prime h.dist h.sort rnd h.radius maxDim overlap h.points h.dim_pos h.div_pos h.box h.side_pos
  rw [hE] at hE'
  obtain rfl := Except.ok.inj hE'
  have hdl := hdiv.1
  have hpos : ∀ x ∈ div, 0 < x := by
    intro x hx
    obtain ⟨i, hi, rfl⟩ := List.getElem_of_mem hx
    have := (isDiv_pos_iff hdiv (d := i) (by omega) h.side_pos).2 (hw i (by omega))
    rwa [List_getD_eq_getElem _ _ hi] at this
  have hcols : 1 < E.columns.length := by
    rw [h7]; exact Nat.one_lt_two_pow (by have := h.dim_pos; omega)
  have hcube' : ∀ pos, IsPos div pos → ∀ i, i ∈ L.getD (rank div pos) [] → i < cloud.length ∧
      InCube dim lo side overlap pos (cloud.getD i []) := by
    intro pos hpos' i hi
    obtain ⟨l, l1, -, l3⟩ := hcube pos hpos'
    rw [List.getD_eq_getElem?_getD, l1] at hi
    exact (l3 i).1 hi
  by_contra hne
  have hlen := List.length_pos_of_ne_nil hne
  obtain ⟨k, hk, hom, a, g1, g2, g3, -⟩ := hS.firstBars_class hcols (by omega)
    (List.getElem?_eq_getElem hlen)
  obtain ⟨o, pts, o1, o2, o3⟩ := hloc 1 hcols k hk
  rw [hspx] at hk
  have hget := List.getElem?_eq_getElem hk
  have hmem := List.getElem_mem hk
  set s := (simplicesOf div.prod C 1)[k] with hsd
  obtain ⟨pts', e1, e2, e3⟩ := hpts 1 hcols k s hget
  rw [o2] at e1
  obtain rfl := Except.ok.inj e1
  obtain ⟨C', c1, -, c2⟩ := C41_nerve_simplices hpos
  rw [hN] at c1
  obtain rfl : C = C' := congrArg Prod.snd (Except.ok.inj c1)
  simp only [simplicesOf] at hmem
  rw [List.getD_eq_getElem?_getD] at hmem
  have hfew : pts.length ≤ 2 * e + 1 := by
    cases hCm : C[0]? with
    | none => rw [hCm] at hmem; simp at hmem
    | some S =>
    rw [hCm] at hmem
    obtain ⟨s1, s2, ps, s3, s4, s5⟩ := ((c2 0 S hCm).2 s).1 hmem
    have hpl : ps.length = 2 := by rw [s4, List.length_map] at s1; exact s1
    match ps, hpl, s3, s4, s5 with
    | [a, b], _, s3, s4, s5 =>
      rw [s4] at s2 e3
      simp only [List.map_cons, List.pairwise_cons, List.mem_cons] at s2
      have r1 := s2.1 (rank div b) (by simp)
      have pa := s3 a (by simp)
      have pb := s3 b (by simp)
      refine hshare div hdiv a b pa pb (by rintro rfl; omega) (s5 a (by simp) b (by simp)) pts
        (e2.imp fun h => h.ne) fun i hi => ?_
      have hi := (e3 i).1 hi
      obtain ⟨hil, ia⟩ := hcube' a pa i (hi _ (by simp))
      exact ⟨hil, ia, (hcube' b pb i (hi _ (by simp))).2⟩
  obtain ⟨o', B, q1, q2, q3⟩ := C70_few_points h.prime pdist h.dist.isPdist argsort h.sort rnd
    (pts.map fun v => cloud.getD v []) maxR h.radius maxDim e h1 (by omega) (by rw [List.length_map]; exact hfew)
  rw [o3] at q1
  obtain rfl := Except.ok.inj q1
  unfold SSEnv.hom0 at g1
  rw [o1, ok_bind, atE_ok q2] at g1
  obtain rfl := Except.ok.inj g1
  rw [q3] at g3
  simp at g3

/-- **C69**, when no point lies in three cubes next to each other.  In every degree `1 ≤ e < max_dim` either
the intersections of two cubes have no classes, or there is a radius at which the cubes have more classes
than the intersections (`OverlapOK`, on the bars of the first page; only needed in the last degree).  In the
other degrees with classes in the intersections every cube with a simplex of dimension `e` must have a class.
Then `create_MV_ss` returns, and its result is the ordinary persistent homology of the cloud, up to the order
of the bars and without the barcodes of positive degree that are empty.  Missing for the full property: clouds
with points in three cubes next to each other, and the cases left out by the conditions on the intersections,
where the code can raise (`C69_violated`). -/
theorem C69_thin_partial (h : MVInput pdist d argsort maxR maxDiv dim cloud p lo hi side)
    (hw : ∀ i < dim, lo i < hi i) (hthin : NoTriple dim lo hi side overlap cloud)
    (ho : maxR ≤ overlap) (hdim : 2 ≤ dim) (hrows : 0 < maxDim)
    (hcoord : ∀ a ∈ cloud, ∀ b ∈ cloud, ∀ i < dim, |a.getD i 0 - b.getD i 0| ≤ d a b)
    (hround : ∀ x y, BarEnd d maxR cloud x → BarEnd d maxR cloud y → rnd x ≤ rnd y → x ≤ y)
    (hover : ∀ E, createEnv pdist argsort rnd maxR maxDim maxDiv overlap dim cloud p = .ok E →
      (∀ e, 1 ≤ e → e < maxDim → E.OverlapOK e) ∧
      ∀ e, 1 ≤ e → e + 1 < maxDim → E.firstBars e 1 ≠ [] →
        ∀ k < E.spx 0, E.classes 0 e k = 0 → E.G 0 k e = []) :
    ∃ (out : MVOut K) (L : LocalOut K) (B0 B0' : Basis K) (B : ℕ → Option (Basis K)),
      createMVss pdist argsort rnd maxR maxDim maxDiv overlap dim cloud p = .ok out ∧
      localPersistentHomology pdist argsort rnd cloud maxR maxDim p = .ok L ∧
      out.persistentHomology = B0 :: (List.range (maxDim - 1)).filterMap B ∧
      L.ph.hom[0]? = some B0' ∧ B0.barcode.Perm B0'.barcode ∧
      ∀ e, e + 1 < maxDim → ∃ B', L.ph.hom[e + 1]? = some B' ∧
          (∀ Q, B e = some Q → Q.barcode.Perm B'.barcode) ∧ (B e = none → B'.barcode = []) := by
  obtain ⟨E, -, -, -, hE, -⟩ := createEnv_ok h.prime h.dist h.sort rnd h.radius
    maxDim overlap h.points h.dim_pos h.div_pos h.box h.side_pos
  obtain ⟨hOK, h1, h2, h3, h4⟩ := h.env hE
  obtain ⟨h5, h6⟩ := h.env' hE
  obtain ⟨D0, hC, hfaces⟩ := h.coverOK hw ho hcoord hE
  obtain ⟨hpos, hz, hinj⟩ := createEnv_thin h.prime h.dist h.sort h.radius h.points h.dim_pos h.div_pos h.box
    h.side_pos hw hthin hE
  have h4p : 4 ≤ 2 ^ dim := by
    calc 4 = 2 ^ 2 := rfl
      _ ≤ 2 ^ dim := Nat.pow_le_pow_right (by omega) hdim
  have hR : ∀ i < maxDim, ∀ j < maxDim, ∀ n m, ∀ a ∈ E.firstBars i n, ∀ b ∈ E.firstBars j m,
      ∀ x, x = a.1 ∨ x = a.2 → ∀ y, y = b.1 ∨ y = b.2 → rnd x ≤ rnd y → x ≤ y := by
    intro i hi j hj n m a ha b hb x hx y hy
    have ea := C68_bar_ends h hw ho hcoord hE i hi n a ha
    have eb := C68_bar_ends h hw ho hcoord hE j hj m b hb
    refine hround x y ?_ ?_
    · rcases hx with rfl | rfl
      · exact ea.1
      · exact ea.2
    · rcases hy with rfl | rfl
      · exact eb.1
      · exact eb.2
  obtain ⟨hov, hsk⟩ := hover E hE
  have hskip : ∀ e, e + 1 < maxDim → E.firstBars e 1 ≠ [] → ∀ k < E.spx 0, E.classes 0 e k = 0 → E.G 0 k e = [] := by
    intro e he hne k hk hc
    rcases Nat.eq_zero_or_pos e with rfl | hp
    · exact skip_zero hOK (by omega) (by omega) hk hc
    · exact hsk e hp he hne k hk hc
  have hgap : ∀ e < maxDim, E.firstBars e 0 = [] → E.firstBars e 1 = [] := by
    intro e he h0
    rcases Nat.eq_zero_or_pos e with rfl | hp
    · exact row_zero_gap hOK (by omega) hC.cols (hfaces 0 hC.cols) h0
    · exact (hov e hp he).gap h0
  obtain ⟨S, hS⟩ := allPages_thin hOK (by omega) (by omega) hz
    (fun deg hdeg => hR deg (by omega) deg (by omega)) (fun deg hdeg => hgap deg (by omega))
  have hdiag : ∀ e, e + 1 < maxDim → ∃ q, diagonal rnd E S E.spxNumber.length (e + 1) = .ok q := by
    intro e he
    have hcols := diagCols_total hOK hC.diff (by omega) hpos (by omega) (by omega) hz hS (e := e) (by omega)
      (fun i hi => hR i (by omega) i (by omega)) (hgap e (by omega)) (hskip e (by omega))
      (hov (e + 1) (by omega) he) (nc := E.spxNumber.length) (by omega)
    obtain ⟨q, hq, -⟩ := strip_diagonal_run hOK hC (hinj _ hC.diff) (by omega) hpos (by omega) (by omega) hz hS
      (by omega) (fun i j hi hj => hR i (by omega) j (by omega)) (hgap e (by omega)) (hskip e (by omega))
      (nc := E.spxNumber.length) (by omega) (Or.inr hcols)
    exact ⟨q, hq⟩
  obtain ⟨rest, hrest⟩ := mapM_ok_of (xs := (List.range (E.rows - 1)).map (· + 1))
    (f := diagonal rnd E S E.spxNumber.length) (by
      intro e he
      obtain ⟨i, hi, rfl⟩ := List.mem_map.1 he
      have := List.mem_range.1 hi
      exact hdiag i (by omega))
  obtain ⟨ph, hph⟩ : ∃ ph, persistentList rnd E S E.spxNumber.length = .ok ph := by
    unfold persistentList
    rw [if_neg (by omega)]
    exact ⟨_, bind_ok.2 ⟨_, hrest, rfl⟩⟩
  have hrun : createMVss pdist argsort rnd maxR maxDim maxDiv overlap dim cloud p = .ok ⟨E, S, ph⟩ := by
    unfold createMVss
    rw [hE, ok_bind, show E.spxNumber.length - 1 = E.columns.length by omega, hS, ok_bind, hph, ok_bind]
    rfl
  obtain ⟨L, B0, B, hL, hB, hmain⟩ := C54_thin_barcodes_partial h hw hthin ho hcoord _ hrun
  obtain ⟨C, L', C', e1, e2, e3, e4⟩ := C61_components_input h hw ho hcoord hround _ hrun
  rw [hL] at e2
  obtain rfl := Except.ok.inj e2
  have hC0 : B0 = C := by
    rw [hB] at e1
    exact Option.some.inj e1
  subst hC0
  exact ⟨_, L, B0, C', B, hrun, hL, hB, e3, e4, fun e he => hmain e he (hskip e (by omega))
    (fun i j hi hj => hR i (by omega) j (by omega))⟩

/-- **C69**, with hypotheses on the input only.  If no point lies in three cubes next to each other and two
cubes next to each other have at most three points in common, `create_MV_ss` returns, and its result is the
ordinary persistent homology of the cloud: one barcode in degree zero and then the barcodes of the degrees
`1, …, max_dim - 1` without those that are empty, up to the order of the bars. -/
theorem C69_few_shared_partial (h : MVInput pdist d argsort maxR maxDiv dim cloud p lo hi side)
    (hw : ∀ i < dim, lo i < hi i) (hthin : NoTriple dim lo hi side overlap cloud)
    (hshare : SharedAtMost 3 dim lo hi side overlap cloud)
    (ho : maxR ≤ overlap) (hdim : 2 ≤ dim) (hrows : 0 < maxDim)
    (hcoord : ∀ a ∈ cloud, ∀ b ∈ cloud, ∀ i < dim, |a.getD i 0 - b.getD i 0| ≤ d a b)
    (hround : ∀ x y, BarEnd d maxR cloud x → BarEnd d maxR cloud y → rnd x ≤ rnd y → x ≤ y) :
    ∃ (out : MVOut K) (L : LocalOut K) (B0 B0' : Basis K) (B : ℕ → Option (Basis K)),
      createMVss pdist argsort rnd maxR maxDim maxDiv overlap dim cloud p = .ok out ∧
      localPersistentHomology pdist argsort rnd cloud maxR maxDim p = .ok L ∧
      out.persistentHomology = B0 :: (List.range (maxDim - 1)).filterMap B ∧
      L.ph.hom[0]? = some B0' ∧ B0.barcode.Perm B0'.barcode ∧
      ∀ e, e + 1 < maxDim → ∃ B', L.ph.hom[e + 1]? = some B' ∧
          (∀ Q, B e = some Q → Q.barcode.Perm B'.barcode) ∧ (B e = none → B'.barcode = []) := by
  refine C69_thin_partial h hw hthin ho hdim hrows hcoord hround fun E hE => ?_
  have hE' : ∀ e, 1 ≤ e → e < maxDim → E.firstBars e 1 = [] := fun e h1 he =>
    shared_firstBars h hw h1 he (fun div hdiv a b ha hb hab hadj l hl hi =>
      (hshare div hdiv a b ha hb hab hadj l hl hi).trans (by omega)) hE
  exact ⟨fun e h1 he => Or.inl (hE' e h1 he), fun e h1 he hne => absurd (hE' e h1 (by omega)) hne⟩

end

/-! ### The ring: two cubes share at most three points -/

instance (dim : ℕ) (lo : ℕ → ℚ) (side overlap : ℚ) (pos : List ℕ) (pt : List ℚ) :
    Decidable (InCube dim lo side overlap pos pt) := by unfold InCube; infer_instance

/-- The positions in a cover with at most two cubes in each of two directions. -/
theorem pos_two {lo hi : ℕ → ℚ} {side : ℚ} {div p : List ℕ} (hdiv : IsDiv 2 lo hi side div)
    (h2 : ∀ i < 2, hi i - lo i ≤ ((2 : ℕ) : ℚ) * side) (hp : IsPos div p) :
    p ∈ [[0, 0], [0, 1], [1, 0], [1, 1]] := by
  obtain ⟨p1, p2⟩ := isPos_iff.1 hp
  have hdl := hdiv.1
  have hb : ∀ i < 2, p.getD i 0 ≤ 1 := by
    intro i hi
    have := p2 i (by omega)
    have := (hdiv.2 i hi).2 (h2 i hi)
    omega
  match p, (show p.length = 2 by omega) with
  | [a, b], _ =>
    have h0 : a ≤ 1 := hb 0 (by omega)
    have h1 : b ≤ 1 := hb 1 (by omega)
    have : a = 0 ∨ a = 1 := by omega
    have : b = 0 ∨ b = 1 := by omega
    simp only [List.mem_cons, List.cons.injEq, List.not_mem_nil, or_false, and_true]
    omega

theorem ring_shared : SharedAtMost 3 2 (fun _ => (-8 : ℚ)) (fun _ => 8) 8 (11/2) ringCloud := by
  intro div hdiv a b ha hb hab _ l hl hi
  have ma := pos_two hdiv (fun i _ => by norm_num) ha
  have mb := pos_two hdiv (fun i _ => by norm_num) hb
  have key : ∀ a ∈ [[0, 0], [0, 1], [1, 0], [1, 1]], ∀ b ∈ [[0, 0], [0, 1], [1, 0], [1, 1]], a ≠ b →
      ((List.range 17).filter fun i => decide (InCube 2 (fun _ => (-8 : ℚ)) 8 (11/2) a (ringCloud.getD i []) ∧
        InCube 2 (fun _ => (-8 : ℚ)) 8 (11/2) b (ringCloud.getD i []))).length ≤ 3 := by decide +kernel
  refine le_trans ?_ (key a ma b mb hab)
  refine (hl.subperm fun i hil => ?_).length_le
  obtain ⟨h1, h2, h3⟩ := hi i hil
  exact List.mem_filter.2 ⟨List.mem_range.2 h1, by simpa using ⟨h2, h3⟩⟩

/-- The hypotheses of `C69_few_shared_partial` are met by the ring, whose result has three bars in degree one. -/
example : MVInput ladderDist ladderD stableArgsort (11/2) 2 2 ringCloud 5 (fun _ => -8) (fun _ => 8) 8 ∧
    NoTriple 2 (fun _ => (-8 : ℚ)) (fun _ => 8) 8 (11/2) ringCloud ∧
    SharedAtMost 3 2 (fun _ => (-8 : ℚ)) (fun _ => 8) 8 (11/2) ringCloud ∧
    (∀ a ∈ ringCloud, ∀ b ∈ ringCloud, ∀ i < 2, |a.getD i 0 - b.getD i 0| ≤ ladderD a b) ∧
    (∀ x y, BarEnd ladderD (11/2) ringCloud x → BarEnd ladderD (11/2) ringCloud y → id x ≤ id y → x ≤ y) ∧
    (ringRun.map fun o => (o.persistentHomology.map fun B => B.barcode).drop 1) =
      .ok [[(9/2, 11/2), (9/2, 11/2), (5, 11/2)]] := by
  refine ⟨ring_input, ring_noTriple, ring_shared, ?_, fun _ _ _ _ h => h, ?_⟩
  · decide +kernel
  · decide +kernel

/-! ### A loop in the intersection of two cubes -/

/-- The corners of a small square and a point on each side. -/
def loopCloud : List (List ℚ) := [[-8, 0], [-1, -1], [-1, 1], [1, -1], [1, 1], [8, 0]]

theorem loop_input : MVInput ladderDist ladderD stableArgsort 3 2 2 loopCloud 5
    (fun i => if i = 0 then -8 else -1) (fun i => if i = 0 then 8 else 1) 8 where
  prime := by decide
  dist := ⟨fun c => rfl, fun a b => by unfold ladderD; positivity⟩
  sort := stableArgsort_isArgsort
  radius := by norm_num
  points := by simp [loopCloud]
  dim_pos := by norm_num
  div_pos := by norm_num
  box := by
    have hall : ∀ pt ∈ loopCloud, (-8 ≤ pt.getD 0 0 ∧ pt.getD 0 0 ≤ 8) ∧ (-1 ≤ pt.getD 1 0 ∧ pt.getD 1 0 ≤ 1) := by
      decide +kernel
    refine ⟨?_, ?_, ⟨⟨0, by omega, by norm_num⟩, ?_⟩⟩
    · intro d hd
      have : d = 0 ∨ d = 1 := by omega
      rcases this with rfl | rfl
      · refine ⟨⟨[-8, 0], by simp [loopCloud], by simp⟩, ?_⟩
        rintro x ⟨pt, hpt, rfl⟩
        exact (hall pt hpt).1.1
      · refine ⟨⟨[-1, -1], by simp [loopCloud], by simp⟩, ?_⟩
        rintro x ⟨pt, hpt, rfl⟩
        exact (hall pt hpt).2.1
    · intro d hd
      have : d = 0 ∨ d = 1 := by omega
      rcases this with rfl | rfl
      · refine ⟨⟨[8, 0], by simp [loopCloud], by simp⟩, ?_⟩
        rintro x ⟨pt, hpt, rfl⟩
        exact (hall pt hpt).1.2
      · refine ⟨⟨[-1, 1], by simp [loopCloud], by simp⟩, ?_⟩
        rintro x ⟨pt, hpt, rfl⟩
        exact (hall pt hpt).2.2
    · rintro x ⟨d, hd, rfl⟩
      have : d = 0 ∨ d = 1 := by omega
      rcases this with rfl | rfl <;> norm_num
  side_pos := by norm_num

theorem loop_noTriple : NoTriple 2 (fun i => if i = 0 then (-8 : ℚ) else -1)
    (fun i => if i = 0 then 8 else 1) 8 3 loopCloud := by
  intro div hdiv a b c ha hb hc hab hac hbc
  exfalso
  have h2 : ∀ i < 2, (if i = 0 then (8 : ℚ) else 1) - (if i = 0 then (-8 : ℚ) else -1) ≤ ((2 : ℕ) : ℚ) * 8 := by
    intro i _
    split <;> norm_num
  have hd1 : div.getD 1 0 ≤ 1 := (hdiv.2 1 (by omega)).2 (by norm_num)
  have hlast : ∀ p, IsPos div p → p ∈ [[0, 0], [1, 0]] := by
    intro p hp
    have h0 := (isPos_iff.1 hp).2 1 (by rw [hdiv.1]; omega)
    have h1 := pos_two hdiv h2 hp
    simp only [List.mem_cons, List.not_mem_nil, or_false] at h1 ⊢
    rcases h1 with rfl | rfl | rfl | rfl
    · simp
    · have : 1 < div.getD 1 0 := h0
      omega
    · simp
    · have : 1 < div.getD 1 0 := h0
      omega
  have ma := hlast a ha
  have mb := hlast b hb
  have mc := hlast c hc
  simp only [List.mem_cons, List.not_mem_nil, or_false] at ma mb mc
  rcases ma with rfl | rfl <;> rcases mb with rfl | rfl <;> rcases mc with rfl | rfl <;> simp at hab hac hbc

/-- The hypotheses of `C69_thin_partial` are met when the intersection has a loop: at the radius `2` the two
cubes have two loops together. -/
example : MVInput ladderDist ladderD stableArgsort 3 2 2 loopCloud 5
      (fun i => if i = 0 then -8 else -1) (fun i => if i = 0 then 8 else 1) 8 ∧
    NoTriple 2 (fun i => if i = 0 then (-8 : ℚ) else -1) (fun i => if i = 0 then 8 else 1) 8 3 loopCloud ∧
    (∀ a ∈ loopCloud, ∀ b ∈ loopCloud, ∀ i < 2, |a.getD i 0 - b.getD i 0| ≤ ladderD a b) ∧
    (∀ E, createEnv ladderDist stableArgsort id 3 2 2 3 2 loopCloud 5 = .ok E →
      (∀ e, 1 ≤ e → e < 2 → E.OverlapOK e) ∧ E.firstBars 1 1 = [(2, 3)] ∧
      ∀ e, 1 ≤ e → e + 1 < 2 → E.firstBars e 1 ≠ [] →
        ∀ k < E.spx 0, E.classes 0 e k = 0 → E.G 0 k e = []) ∧
    ((createMVss ladderDist stableArgsort id 3 2 2 3 2 loopCloud 5).map fun o =>
      o.persistentHomology.map fun B => B.barcode) =
        .ok [[(0, 3), (0, 3), (0, 3), (0, 2), (0, 2), (0, 2)], [(2, 3)]] := by
  refine ⟨loop_input, loop_noTriple, ?_, fun E hE => ?_, ?_⟩
  · decide +kernel
  · have key : ((createEnv ladderDist stableArgsort id 3 2 2 3 2 loopCloud 5).map fun E =>
        [E.firstBars 1 0, E.firstBars 1 1]) = .ok [[(2, 3), (2, 3)], [(2, 3)]] := by decide +kernel
    rw [hE] at key
    have key := Except.ok.inj key
    simp only [List.cons.injEq, and_true] at key
    refine ⟨fun e h1 h2 => ?_, key.2, fun e h1 h2 => by omega⟩
    obtain rfl : e = 1 := by omega
    refine Or.inr ⟨2, ?_⟩
    rw [key.1, key.2]
    decide +kernel
  · decide +kernel

end Permaviss
