import Verif.Props.ThinTotal

/-!
# One cube: `create_MV_ss` is the ordinary computation (C79)
-/

namespace Permaviss

section

variable {K : Type} [Field K] [LinearOrder K] [FloorRing K] [IsStrictOrderedRing K]
  {pdist : List (List K) → List (List K)} {d : List K → List K → K} {argsort : List K → List Nat}
  {rnd : K → K} {maxR : K} {maxDim dim : ℕ} {overlap : K} {cloud : List (List K)} {p : ℕ}
  {lo hi : ℕ → K} {side : K}

omit [FloorRing K] [IsStrictOrderedRing K] in
/-- With `max_div = 1` there is a single cube. -/
theorem oneCube_pos (hbox : IsBox 1 dim cloud lo hi side) {div : List ℕ} (hdiv : IsDiv dim lo hi side div)
    {a b : List ℕ} (ha : IsPos div a) (hb : IsPos div b) : a = b := by
  obtain ⟨a1, a2⟩ := isPos_iff.1 ha
  obtain ⟨b1, b2⟩ := isPos_iff.1 hb
  have h1 : ∀ i < div.length, div.getD i 0 ≤ 1 := fun i hi' =>
    (hdiv.2 i (hdiv.1 ▸ hi')).2 (hbox.isSide.2 ⟨i, hdiv.1 ▸ hi', rfl⟩)
  refine List.ext_getElem (a1.trans b1.symm) fun i hi1 hi2 => ?_
  have ea := a2 i (by omega)
  have eb := b2 i (by omega)
  have := h1 i (by omega)
  rw [List_getD_eq_getElem _ _ hi1] at ea
  rw [List_getD_eq_getElem _ _ hi2] at eb
  omega

/-- **C79**.  With `max_div = 1`, `create_MV_ss` returns for every cloud, and the result is the ordinary persistent
homology in all degrees: one barcode in degree zero and then those barcodes of the degrees `1, …, max_dim - 1` that
are not empty, up to the order of the bars. -/
theorem C79_one_cube (h : MVInput pdist d argsort maxR 1 dim cloud p lo hi side) (hw : ∀ i < dim, lo i < hi i)
    (ho : maxR ≤ overlap) (hdim : 2 ≤ dim) (hrows : 0 < maxDim)
    (hcoord : ∀ a ∈ cloud, ∀ b ∈ cloud, ∀ i < dim, |a.getD i 0 - b.getD i 0| ≤ d a b)
    (hround : ∀ x y, BarEnd d maxR cloud x → BarEnd d maxR cloud y → rnd x ≤ rnd y → x ≤ y) :
    ∃ (out : MVOut K) (L : LocalOut K) (B0 B0' : Basis K) (B : ℕ → Option (Basis K)),
      createMVss pdist argsort rnd maxR maxDim 1 overlap dim cloud p = .ok out ∧
      localPersistentHomology pdist argsort rnd cloud maxR maxDim p = .ok L ∧
      out.persistentHomology = B0 :: (List.range (maxDim - 1)).filterMap B ∧
      L.ph.hom[0]? = some B0' ∧ B0.barcode.Perm B0'.barcode ∧
      ∀ e, e + 1 < maxDim → ∃ B', L.ph.hom[e + 1]? = some B' ∧
          (∀ Q, B e = some Q → Q.barcode.Perm B'.barcode) ∧ (B e = none → B'.barcode = []) :=
  C69_few_shared_partial h hw
    (fun _ hdiv _ _ _ ha hb _ hab _ _ _ _ _ _ _ _ _ => absurd (oneCube_pos h.box hdiv ha hb) hab)
    (fun _ hdiv _ _ ha hb hab _ _ _ _ => absurd (oneCube_pos h.box hdiv ha hb) hab)
    ho hdim hrows hcoord hround

end

/-- The corners of a square. -/
def squareCloud : List (List ℚ) := [[0, 0], [2, 0], [0, 2], [2, 2]]

theorem square_input : MVInput ladderDist ladderD stableArgsort 5 1 2 squareCloud 3 (fun _ => 0) (fun _ => 2) 2 where
  prime := by decide
  dist := ⟨fun c => rfl, fun a b => by unfold ladderD; positivity⟩
  sort := stableArgsort_isArgsort
  radius := by norm_num
  points := by simp [squareCloud]
  dim_pos := by norm_num
  div_pos := by norm_num
  box := by
    have hall : ∀ pt ∈ squareCloud, ∀ d < 2, 0 ≤ pt.getD d 0 ∧ pt.getD d 0 ≤ 2 := by decide +kernel
    refine ⟨fun d hd => ⟨?_, ?_⟩, fun d hd => ⟨?_, ?_⟩, ⟨⟨0, by omega, by norm_num⟩, ?_⟩⟩
    · refine ⟨[0, 0], by simp [squareCloud], ?_⟩
      have : d = 0 ∨ d = 1 := by omega
      rcases this with rfl | rfl <;> rfl
    · rintro x ⟨pt, hpt, rfl⟩
      exact (hall pt hpt d hd).1
    · refine ⟨[2, 2], by simp [squareCloud], ?_⟩
      have : d = 0 ∨ d = 1 := by omega
      rcases this with rfl | rfl <;> rfl
    · rintro x ⟨pt, hpt, rfl⟩
      exact (hall pt hpt d hd).2
    · rintro x ⟨d, hd, rfl⟩
      norm_num
  side_pos := by norm_num

/-- The hypotheses of `C79_one_cube` are met by the square; its loop is found. -/
example : MVInput ladderDist ladderD stableArgsort 5 1 2 squareCloud 3 (fun _ => 0) (fun _ => 2) 2 ∧
    (∀ a ∈ squareCloud, ∀ b ∈ squareCloud, ∀ i < 2, |a.getD i 0 - b.getD i 0| ≤ ladderD a b) ∧
    (∀ x y, BarEnd ladderD 5 squareCloud x → BarEnd ladderD 5 squareCloud y → id x ≤ id y → x ≤ y) ∧
    ((createMVss ladderDist stableArgsort id 5 2 1 5 2 squareCloud 3).map fun o =>
      o.persistentHomology.map fun B => B.barcode) = .ok [[(0, 5), (0, 2), (0, 2), (0, 2)], [(2, 4)]] := by
  refine ⟨square_input, by decide +kernel, fun _ _ _ _ h => h, by decide +kernel⟩

end Permaviss
