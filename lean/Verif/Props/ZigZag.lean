import Verif.Lemmas.D1
import Verif.Props.Lift
import Verif.Props.MV

/-!
# The zig-zag (C48) and the first differential (C58, C59)
-/

namespace Permaviss

open Finset

attribute [-instance] instMulZeroClassOfSemiring

section

variable {K : Type} [Field K] [LinearOrder K] [FloorRing K] [IsStrictOrderedRing K]
  {pdist : List (List K) → List (List K)} {d : List K → List K → K} {argsort : List K → List Nat}
  {rnd : K → K} {maxR : K} {maxDim maxDiv dim : ℕ} {overlap : K} {cloud : List (List K)} {p : ℕ}
  {lo hi : ℕ → K} {side : K} {E : SSEnv K}

/-- **C48, part.** `cech_diff_and_lift(n + 1, deg, C, R)` on chains that are cycles at their radii (below
`max_r`).  It does not raise; it returns `Betas`, with one row per radius and one column per class of
column `n`, reduced mod `p`, and a lift, reduced mod `p`.  On every piece `k` of column `n` that has
classes in degree `deg`, the vertical boundary of the lift plus the Čech differential of the chains is the
combination of classes given by the columns of `Betas` for piece `k`; the classes used are born, and the
simplices of the lift present, at the radius.  Missing: the pieces without classes in that degree, where
the lift is zero and the equation fails in general (`C48_violated`). -/
theorem C48_zigzag_partial (h : MVInput pdist d argsort maxR maxDiv dim cloud p lo hi side)
    (hE : createEnv pdist argsort rnd maxR maxDim maxDiv overlap dim cloud p = .ok E)
    (n deg : ℕ) (hn : n + 1 < 2 ^ dim) (hpos : 0 < E.spx (n + 1)) (hdeg : deg < maxDim) (C : LChains)
    (hC : C.WF (E.widths (n + 1) deg)) (R : List K) (hR : ∀ r ∈ R, r < maxR)
    (href : ∀ e ∈ C, ∀ g ∈ e.ref, g < R.length)
    (hcyc : ∀ (g : ℕ) (r : K), R[g]? = some r → ∀ l < E.spx (n + 1),
      E.IsCycleAt (diam d fun v => cloud.getD v []) (n + 1) l deg
        (fun j => (C.val l g j : ZMod E.p)) r) :
    ∃ C' B lift, cechDiff E n deg C = .ok C' ∧ cechDiffAndLift E n deg C R = .ok (B, lift) ∧
      B.length = R.length ∧
      (∀ row ∈ B, row.length = E.classStart n deg (E.spx n) ∧ ∀ x ∈ row, 0 ≤ x ∧ x < (E.p : ℤ)) ∧
      lift.WF (E.widths n (deg + 1)) ∧ (∀ e ∈ lift, ∀ r ∈ e.coord, ∀ x ∈ r, 0 ≤ x ∧ x < (E.p : ℤ)) ∧
      ∀ k < E.spx n, 0 < E.classes n deg k → ∀ (g : ℕ) (r : K), R[g]? = some r →
        E.ZigZag (diam d fun v => cloud.getD v []) n deg k (fun j => (C'.val k g j : ZMod E.p)) r
          (fun j => (lift.val k g j : ZMod E.p))
          (fun a => zv E.p (B.getD g []) (E.classStart n deg k + a)) := by
  obtain ⟨hS, rfl, rfl, rfl, h7⟩ := h.env hE
  obtain ⟨D, hD⟩ := hS.hasDiff n (by omega)
  obtain ⟨C', B, lift, a1, a2, a3, a4, a5, a6, -, a8, -⟩ :=
    cechDiffAndLift_spec hS hD (by omega) hpos hdeg hC hR href hcyc
  exact ⟨C', B, lift, a1, a2, a3, a4, a5, a6, a8⟩

/-- **C48, for the classes.** `Betas` is right on all the pieces: on each piece some chain present at the
radius has vertical boundary plus the Čech differential equal to the combination of classes in
`Betas`.  Only classes alive at the radius are used, so that this row of `Betas` holds the coordinates of
the homology class of the Čech differential at the radius. -/
theorem C48_betas (h : MVInput pdist d argsort maxR maxDiv dim cloud p lo hi side)
    (hE : createEnv pdist argsort rnd maxR maxDim maxDiv overlap dim cloud p = .ok E)
    (n deg : ℕ) (hn : n + 1 < 2 ^ dim) (hpos : 0 < E.spx (n + 1)) (hdeg : deg < maxDim) (C : LChains)
    (hC : C.WF (E.widths (n + 1) deg)) (R : List K) (hR : ∀ r ∈ R, r < maxR)
    (href : ∀ e ∈ C, ∀ g ∈ e.ref, g < R.length)
    (hcyc : ∀ (g : ℕ) (r : K), R[g]? = some r → ∀ l < E.spx (n + 1),
      E.IsCycleAt (diam d fun v => cloud.getD v []) (n + 1) l deg
        (fun j => (C.val l g j : ZMod E.p)) r) :
    ∃ C' B lift, cechDiff E n deg C = .ok C' ∧ cechDiffAndLift E n deg C R = .ok (B, lift) ∧
      ∀ k < E.spx n, ∀ (g : ℕ) (r : K), R[g]? = some r →
        (∃ w, E.ZigZag (diam d fun v => cloud.getD v []) n deg k (fun j => (C'.val k g j : ZMod E.p)) r
          w (fun a => zv E.p (B.getD g []) (E.classStart n deg k + a))) ∧
        ∀ hom, E.hom0 n k deg = .ok hom → ∀ (a : ℕ) (b : K × K), hom.barcode[a]? = some b →
          zv E.p (B.getD g []) (E.classStart n deg k + a) ≠ 0 → b.1 ≤ r ∧ r < b.2 := by
  obtain ⟨hS, rfl, rfl, rfl, h7⟩ := h.env hE
  obtain ⟨D, hD⟩ := hS.hasDiff n (by omega)
  obtain ⟨C', B, lift, a1, a2, -, -, -, -, -, a8, a9⟩ :=
    cechDiffAndLift_spec hS hD (by omega) hpos hdeg hC hR href hcyc
  have hw : ∀ k < E.spx n, ∀ (g : ℕ) (r : K), R[g]? = some r →
      ∃ w, E.ZigZag (diam d fun v => cloud.getD v []) n deg k (fun j => (C'.val k g j : ZMod E.p)) r
        w (fun a => zv E.p (B.getD g []) (E.classStart n deg k + a)) := by
    intro k hk g r hr
    by_cases hcl : 0 < E.classes n deg k
    · exact ⟨_, a8 k hk hcl g r hr⟩
    obtain ⟨C'', t1, t2, -, -, t5⟩ := cechDiff_spec hS hD (by omega) hpos hdeg.le hC
    rw [a1] at t1
    obtain rfl := Except.ok.inj t1
    have hcy : E.IsCycleAt (diam d fun v => cloud.getD v []) n k deg
        (fun j => (C'.val k g j : ZMod E.p)) r := by
      refine cech_isCycleAt hS hD (by omega) hk hdeg.le
        (c := fun l j => (C.val l g j : ZMod E.p)) (fun l hl => hcyc g r hr l hl) ?_ ?_
      · intro j hj; exact t5 k hk g j hj
      · intro j hj
        rw [LChains.val_of_wf t2 (by rw [widths_length]; exact hk) (by
          rw [widths_getD E hk]; exact hj)]
        simp
    obtain ⟨w, β, hw⟩ := exists_zigzag hS (by omega) hk hdeg (hR r (List.mem_of_getElem? hr)) hcy
    exact ⟨w, hw.congr fun c hc => by omega⟩
  refine ⟨C', B, lift, a1, a2, fun k hk g r hr => ⟨hw k hk g r hr, fun hom hh a b hb hne => ?_⟩⟩
  refine ⟨?_, lt_of_not_ge fun hc => hne (a9 k hk g r hr hom hh a b hb hc)⟩
  obtain ⟨w, ⟨⟨o, hom', -, z2, -, z4⟩, -⟩⟩ := hw k hk g r hr
  rw [hh] at z2; obtain rfl := Except.ok.inj z2
  obtain ⟨o, pts, v, im, hom', L⟩ := hS.liftData (n := n) (by omega) hk hdeg.le
  have e := L.hom0
  rw [hh] at e; obtain rfl := Except.ok.inj e
  obtain ⟨b', hb', hbr⟩ := z4 a (by rw [← L.hom_ok.bars]; exact (List.getElem?_eq_some_iff.1 hb).1) hne
  rw [hb] at hb'; obtain rfl := Option.some.inj hb'
  exact hbr

/-- **C58.** `first_differential(n + 1, deg)` does not raise, and returns the matrix of the map induced by
the Čech differential.  Take the class `a` of degree `deg` of piece `l` of column `n + 1`, with
representative `hom.chain a` and bar `b`.  On every piece `k` of column `n` the Čech differential of the
representative is, up to the boundary of a chain present at the birth `b.1`, the combination of the
classes of piece `k` with the coefficients in the column of the class.  The matrix has one column per
class of column `n + 1` and one row per class of column `n`, with entries in `[0, p)`. -/
theorem C58_first_differential (h : MVInput pdist d argsort maxR maxDiv dim cloud p lo hi side)
    (hE : createEnv pdist argsort rnd maxR maxDim maxDiv overlap dim cloud p = .ok E)
    (n deg : ℕ) (hn : n + 1 < 2 ^ dim) (hdeg : deg < maxDim) :
    ∃ D M, E.nerveDiff[n]? = some D ∧ firstDifferential E n deg = .ok M ∧
      M.ncols = E.classStart (n + 1) deg (E.spx (n + 1)) ∧
      (0 < M.ncols → M.nrows = E.classStart n deg (E.spx n)) ∧ M.WellShaped ∧ M.Reduced E.p ∧
      ∀ l < E.spx (n + 1), ∀ hom, E.hom0 (n + 1) l deg = .ok hom → ∀ (a : ℕ) (b : K × K),
        hom.barcode[a]? = some b → ∀ k < E.spx n,
        ∃ w, E.ZigZag (diam d fun v => cloud.getD v []) n deg k
          (E.cechOf D n deg k l (hom.chain E.p a)) b.1 w
          fun c => M.z E.p (E.classStart n deg k + c) (E.classStart (n + 1) deg l + a) := by
  obtain ⟨hS, rfl, rfl, rfl, h7⟩ := h.env hE
  obtain ⟨D, hD⟩ := hS.hasDiff n (by omega)
  obtain ⟨M, a1, a2, a3, a4, a5, a6, -⟩ := firstDifferential_spec hS hD (by omega) hdeg
  rw [hS.pageOne_eq (by omega) hdeg] at a2 a3
  exact ⟨D, M, hD, a1, a2, a3, a4, a5, a6⟩

/-- The matrix is the one of a morphism of persistence modules: an entry is only nonzero when the class of
column `n` is born no later, and dies no later, than the class of column `n + 1`. -/
theorem C58_morphism (h : MVInput pdist d argsort maxR maxDiv dim cloud p lo hi side)
    (hE : createEnv pdist argsort rnd maxR maxDim maxDiv overlap dim cloud p = .ok E)
    (n deg : ℕ) (hn : n + 1 < 2 ^ dim) (hdeg : deg < maxDim) (hne : E.firstBars deg (n + 1) ≠ []) :
    ∃ M, firstDifferential E n deg = .ok M ∧
      IsMorphism E.p (E.firstBars deg (n + 1)) (E.firstBars deg n) M := by
  obtain ⟨hS, rfl, rfl, rfl, h7⟩ := h.env hE
  exact firstDifferential_morphism hS (by omega) hdeg hne

/-- The matrix only uses classes which are alive: an entry is only nonzero when the class of column `n`
is alive at the birth of the class of column `n + 1`.  So the column of a class holds the coordinates of
the homology class of its Čech differential. -/
theorem C58_alive (h : MVInput pdist d argsort maxR maxDiv dim cloud p lo hi side)
    (hE : createEnv pdist argsort rnd maxR maxDim maxDiv overlap dim cloud p = .ok E)
    (n deg : ℕ) (hn : n + 1 < 2 ^ dim) (hdeg : deg < maxDim) :
    ∃ M, firstDifferential E n deg = .ok M ∧ ∀ (s t : ℕ) (b b' : K × K),
      (E.firstBars deg (n + 1))[s]? = some b → (E.firstBars deg n)[t]? = some b' →
      M.z E.p t s ≠ 0 → b'.1 ≤ b.1 ∧ b.1 < b'.2 := by
  obtain ⟨hS, rfl, rfl, rfl, h7⟩ := h.env hE
  obtain ⟨D, hD⟩ := hS.hasDiff n (by omega)
  obtain ⟨M, a1, -, -, -, -, -, a7⟩ := firstDifferential_spec hS hD (by omega) hdeg
  refine ⟨M, a1, fun s t b b' hb hb' hne => ⟨?_, lt_of_not_ge fun hc => hne (a7 s t b b' hb hb' hc)⟩⟩
  obtain ⟨M', a1', hm⟩ := firstDifferential_morphism hS (n := n) (by omega) hdeg (by
    rintro hc; rw [hc] at hb; simp at hb)
  rw [a1] at a1'; obtain rfl := Except.ok.inj a1'
  exact hm.birth t s b b' hb hb' hne

/-- **C59.** The first differentials compose to zero as maps of persistence modules: if the product of
the matrices has a nonzero entry then the class of column `n` is already dead when the class of column
`n + 2` is born. -/
theorem C59_square_zero (h : MVInput pdist d argsort maxR maxDiv dim cloud p lo hi side)
    (hE : createEnv pdist argsort rnd maxR maxDim maxDiv overlap dim cloud p = .ok E)
    (n deg : ℕ) (hn : n + 2 < 2 ^ dim) (hdeg : deg < maxDim) :
    ∃ M N, firstDifferential E n deg = .ok M ∧ firstDifferential E (n + 1) deg = .ok N ∧
      ∀ (s t : ℕ) (b b' : K × K), (E.firstBars deg (n + 2))[s]? = some b →
        (E.firstBars deg n)[t]? = some b' →
        ∑ m ∈ range (E.firstBars deg (n + 1)).length, M.z E.p t m * N.z E.p m s ≠ 0 →
        b'.2 ≤ b.1 := by
  obtain ⟨hS, rfl, rfl, rfl, h7⟩ := h.env hE
  exact d1_d1_bars hS (by omega) hdeg

end

/-! ### Concrete cases -/

/-- The hypotheses of C58 and C59 are met: in degree `1` the columns of the rectangle have classes, and the
first two differentials are not zero. -/
example : (rectEnv.bind fun E => (firstDifferential E 0 1).bind fun M => (firstDifferential E 1 1).map
    fun N => [M.cols, N.cols]) = .ok [
      [[4, 1, 0, 0], [4, 0, 1, 0], [0, 4, 1, 0], [4, 0, 0, 1], [0, 4, 0, 1], [0, 0, 4, 1]],
      [[4, 1, 4, 0, 0, 0], [4, 0, 0, 1, 4, 0], [0, 4, 0, 1, 0, 4], [0, 0, 4, 0, 1, 4]]] := by
  decide +kernel

/-- A chain on the first intersection: a boundary at radius `4`, with lifts that are not zero and no classes
(the boundary of `4 [0, 1] + [1, 2]` is `[0] + 3 [1] + [2]` mod `5`). -/
example : (rectEnv.bind fun E => (cechDiffAndLift E 0 0 [⟨[0], [[1, 3, 1, 0]]⟩, LEntry.empty, LEntry.empty,
    LEntry.empty, LEntry.empty, LEntry.empty] [4]).map fun o => (o.1, o.2)) =
    .ok ([List.replicate 16 0],
      [⟨[0], [[4, 0, 1, 0, 0, 0]]⟩, ⟨[0], [[1, 0, 4, 0, 0, 0]]⟩, ⟨[], []⟩, ⟨[], []⟩]) := by
  decide +kernel

/-- The corners of a rectangle and two points on either side: `(±7, ±24)` and `(±25, 0)`. -/
def silCloud : List (List ℚ) := [[7, 24], [7, -24], [-7, -24], [-7, 24], [25, 0], [-25, 0]]

/-- The Euclidean distances between these points. -/
def silD (a b : List ℚ) : ℚ :=
  if sqDist a b = 0 then 0 else if sqDist a b = 14 ^ 2 then 14 else if sqDist a b = 30 ^ 2 then 30
  else if sqDist a b = 40 ^ 2 then 40 else if sqDist a b = 48 ^ 2 then 48 else 50

example : ∀ a ∈ silCloud, ∀ b ∈ silCloud, silD a b ^ 2 = sqDist a b := by decide +kernel

def silDist (c : List (List ℚ)) : List (List ℚ) := c.map fun a => c.map (silD a)

theorem sil_box : IsBox 2 2 silCloud (fun d => -25 + d) (fun d => 25 - d) 25 := by
  refine ⟨?_, ?_, ⟨⟨0, by omega, by norm_num⟩, ?_⟩⟩
  · intro d hd
    have : d = 0 ∨ d = 1 := by omega
    rcases this with rfl | rfl
    · refine ⟨⟨[-25, 0], by simp [silCloud], by norm_num⟩, ?_⟩
      rintro x ⟨pt, hpt, rfl⟩
      simp only [silCloud, List.mem_cons, List.not_mem_nil, or_false] at hpt
      rcases hpt with rfl | rfl | rfl | rfl | rfl | rfl <;> norm_num
    · refine ⟨⟨[7, -24], by simp [silCloud], by norm_num⟩, ?_⟩
      rintro x ⟨pt, hpt, rfl⟩
      simp only [silCloud, List.mem_cons, List.not_mem_nil, or_false] at hpt
      rcases hpt with rfl | rfl | rfl | rfl | rfl | rfl <;> norm_num
  · intro d hd
    have : d = 0 ∨ d = 1 := by omega
    rcases this with rfl | rfl
    · refine ⟨⟨[25, 0], by simp [silCloud], by norm_num⟩, ?_⟩
      rintro x ⟨pt, hpt, rfl⟩
      simp only [silCloud, List.mem_cons, List.not_mem_nil, or_false] at hpt
      rcases hpt with rfl | rfl | rfl | rfl | rfl | rfl <;> norm_num
    · refine ⟨⟨[7, 24], by simp [silCloud], by norm_num⟩, ?_⟩
      rintro x ⟨pt, hpt, rfl⟩
      simp only [silCloud, List.mem_cons, List.not_mem_nil, or_false] at hpt
      rcases hpt with rfl | rfl | rfl | rfl | rfl | rfl <;> norm_num
  · rintro x ⟨d, hd, rfl⟩
    have : d = 0 ∨ d = 1 := by omega
    rcases this with rfl | rfl <;> norm_num

theorem sil_input : MVInput silDist silD stableArgsort 49 2 2 silCloud 5 (fun d => -25 + d)
    (fun d => 25 - d) 25 where
  prime := by decide
  dist := ⟨fun c => rfl, fun a b => by unfold silD; split_ifs <;> norm_num⟩
  sort := stableArgsort_isArgsort
  radius := by norm_num
  points := by simp [silCloud]
  dim_pos := by norm_num
  div_pos := by norm_num
  box := sil_box
  side_pos := by norm_num

def silEnv : Except PyErr (SSEnv ℚ) := createEnv silDist stableArgsort id 49 2 2 (99 / 2) 2 silCloud 5

/-- **C48 fails** on pieces without classes.  In the plane, with `max_r = 49`, overlap `49.5` and
`p = 5`: the rectangle is the intersection of two pieces, where it has a class of degree `1` born at `48`.
In the two pieces it is a boundary, and they have no classes in degree `1`.  For the chains given by
`first_differential` (a cycle at `48`) the lift returned by `cech_diff_and_lift` is zero on the first
piece although the Čech differential is not. -/
theorem C48_violated : ∃ E C C' B lift, silEnv = .ok E ∧ generatorChains E 1 1 = .ok C ∧
    (∀ l < E.spx 1, E.IsCycleAt (diam silD fun v => silCloud.getD v []) 1 l 1
      (fun j => (C.val l 0 j : ZMod E.p)) 48) ∧
    cechDiff E 0 1 C = .ok C' ∧ cechDiffAndLift E 0 1 C [48] = .ok (B, lift) ∧
    ¬ ∃ β, E.ZigZag (diam silD fun v => silCloud.getD v []) 0 1 0
      (fun j => (C'.val 0 0 j : ZMod E.p)) 48 (fun j => (lift.val 0 0 j : ZMod E.p)) β := by
  have hall : (silEnv.bind fun E => (generatorChains E 1 1).bind fun C => (cechDiff E 0 1 C).bind fun C' =>
      (cechDiffAndLift E 0 1 C [48]).map fun o => [C, C', o.2]) =
      .ok [[⟨[], []⟩, ⟨[0], [[1, 4, 1, 1]]⟩, ⟨[], []⟩, ⟨[], []⟩, ⟨[], []⟩, ⟨[], []⟩],
        [⟨[0], [[4, 1, 0, 0, 0, 0, 4, 4]]⟩, ⟨[], []⟩, ⟨[0], [[1, 4, 0, 0, 0, 0, 1, 1]]⟩, ⟨[], []⟩],
        [⟨[], []⟩, ⟨[], []⟩, ⟨[], []⟩, ⟨[], []⟩]] := by
    decide +kernel
  have hnum : (silEnv.map fun E => [E.p, E.spx 1, E.classes 0 1 0, E.classes 1 1 0, E.classes 1 1 1]) =
      .ok [5, 6, 0, 0, 1] := by
    decide +kernel
  have hbar : (silEnv.map fun E => (E.hom0 1 1 1).toOption.map Basis.barcode) =
      .ok (some [(48, 49)]) := by
    decide +kernel
  cases hE : silEnv with
  | error e => rw [hE] at hnum; cases hnum
  | ok E =>
    rw [hE] at hall hnum hbar
    replace hbar : (E.hom0 1 1 1).toOption.map Basis.barcode = some [(48, 49)] := Except.ok.inj hbar
    obtain ⟨hS, h5, h6, h7, h8⟩ := sil_input.env hE
    have hnum' := Except.ok.inj hnum
    simp only [List.cons.injEq, and_true] at hnum'
    obtain ⟨hp, hspx, hcl, hc0, hc1⟩ := hnum'
    obtain ⟨C, c1, c2, c3, c4⟩ := generatorChains_spec hS (n := 1) (deg := 1) (by omega) (by omega) (by omega)
    change ((generatorChains E 1 1).bind _) = _ at hall
    rw [c1] at hall
    change ((cechDiff E 0 1 C).bind _) = _ at hall
    cases hC' : cechDiff E 0 1 C with
    | error e => rw [hC'] at hall; cases hall
    | ok C' =>
      rw [hC'] at hall
      change Except.map _ (cechDiffAndLift E 0 1 C [48]) = _ at hall
      cases ho : cechDiffAndLift E 0 1 C [48] with
      | error e => rw [ho] at hall; cases hall
      | ok o =>
        rw [ho] at hall
        have hall' := Except.ok.inj hall
        simp only [List.cons.injEq, and_true] at hall'
        obtain ⟨hC, hCC, hl⟩ := hall'
        refine ⟨E, C, C', o.1, o.2, rfl, c1, ?_, hC', ho, ?_⟩
        · -- the class of the rectangle
          cases hh : E.hom0 1 1 1 with
          | error e => rw [hh] at hbar; cases hbar
          | ok hom =>
            rw [hh] at hbar
            have hbar' : hom.barcode = [(48, 49)] := Option.some.inj hbar
            have hst : E.classStart 1 1 1 + 0 = 0 := by
              unfold SSEnv.classStart; rw [Finset.sum_range_one, hc0]
            have hd : hom.dim = 1 := by
              unfold SSEnv.classes at hc1; rw [hh] at hc1; exact hc1
            intro l hl
            have := c4 1 (by omega) hom hh 0 (by omega) l hl
            rw [hst] at this
            rw [this]
            split
            · next he =>
              subst he
              have hb0 : hom.barcode[0]? = some (48, 49) := by rw [hbar']; rfl
              exact (hS.rep_cycle (by omega) (by omega) hl hh hb0).1
            · exact isCycleAt_zero hS (by omega) hl _
        · rintro ⟨β, hz⟩
          obtain ⟨o', hom, ho', hh, heq, -⟩ := hz.closes
          have hd0 : hom.dim = 0 := by unfold SSEnv.classes at hcl; rw [hh] at hcl; exact hcl
          have hw : (fun j => ((LChains.val o.2 0 0 j : ℤ) : ZMod E.p)) = 0 := by
            funext j
            have : o.2 = [⟨[], []⟩, ⟨[], []⟩, ⟨[], []⟩, ⟨[], []⟩] := hl
            rw [this]
            have h0 : LChains.val [⟨[], []⟩, ⟨[], []⟩, ⟨[], []⟩, ⟨[], []⟩] 0 0 j = 0 := rfl
            rw [h0]
            simp
          rw [hw, map_zero, zero_add, hd0] at heq
          have h0 := congrFun heq 0
          have hv : LChains.val C' 0 0 0 = 4 := by rw [hCC]; rfl
          rw [hv] at h0
          simp only [Finset.range_zero, Finset.sum_empty, Pi.zero_apply] at h0
          rw [hp] at h0
          revert h0
          decide

/-- **C54 fails in the plane**: on this cloud `create_MV_ss` raises `ValueError`, while
`persistent_homology` on the whole complex returns barcodes. -/
theorem C54_violated_plane :
    (createMVss silDist stableArgsort id 49 2 2 (99 / 2) 2 silCloud 5).map
      (fun o => o.persistentHomology.map Basis.barcode) = .error .valueError ∧
    (localPersistentHomology silDist stableArgsort id silCloud 49 2 5).map
      (fun o => o.ph.hom.map Basis.barcode) =
      .ok [[(0, 49), (0, 30), (0, 30), (0, 30), (0, 14), (0, 14)], [(30, 48)], [(48, 49)]] := by
  constructor <;> decide +kernel

end Permaviss
