import Verif.Props.Strip

/-!
# A ring covered by four squares (C54)

The hypotheses of the theorems `C54_thin_…` are met by a cloud around an empty centre.
-/

namespace Permaviss

/-- Seventeen points on a ring around the origin; at the top there are two ways, through `(0, 8)` and through
`(0, 3)`. -/
def ringCloud : List (List ℚ) :=
  [[0, 8], [0, 3], [-3, 7], [3, 7], [-4, 7/2], [4, 7/2], [-6, 2], [6, 2], [-8, 0], [8, 0], [-6, -2], [6, -2],
    [-4, -4], [4, -4], [-2, -6], [2, -6], [0, -8]]

def ringRun : Except PyErr (MVOut ℚ) :=
  createMVss ladderDist stableArgsort id (11/2) 2 2 (11/2) 2 ringCloud 5

theorem ring_input : MVInput ladderDist ladderD stableArgsort (11/2) 2 2 ringCloud 5
    (fun _ => -8) (fun _ => 8) 8 where
  prime := by decide
  dist := ⟨fun c => rfl, fun a b => by unfold ladderD; positivity⟩
  sort := stableArgsort_isArgsort
  radius := by norm_num
  points := by simp [ringCloud]
  dim_pos := by norm_num
  div_pos := by norm_num
  box := by
    have hall : ∀ pt ∈ ringCloud, ∀ d < 2, -8 ≤ pt.getD d 0 ∧ pt.getD d 0 ≤ 8 := by decide +kernel
    refine ⟨?_, ?_, ⟨⟨0, by omega, by norm_num⟩, ?_⟩⟩
    · intro d hd
      refine ⟨?_, ?_⟩
      · have : d = 0 ∨ d = 1 := by omega
        rcases this with rfl | rfl
        · exact ⟨[-8, 0], by simp [ringCloud], by simp⟩
        · exact ⟨[0, -8], by simp [ringCloud], by simp⟩
      · rintro x ⟨pt, hpt, rfl⟩
        exact (hall pt hpt d hd).1
    · intro d hd
      refine ⟨?_, ?_⟩
      · have : d = 0 ∨ d = 1 := by omega
        rcases this with rfl | rfl
        · exact ⟨[8, 0], by simp [ringCloud], by simp⟩
        · exact ⟨[0, 8], by simp [ringCloud], by simp⟩
      · rintro x ⟨pt, hpt, rfl⟩
        exact (hall pt hpt d hd).2
    · rintro x ⟨d, hd, rfl⟩
      norm_num
  side_pos := by norm_num

theorem ring_noTriple : NoTriple 2 (fun _ => (-8 : ℚ)) (fun _ => 8) 8 (11/2) ringCloud := by
  intro div hdiv a b c ha hb hc hab hac hbc _ _ _ pt hpt ia ib ic
  have hdl := hdiv.1
  have h2 : ∀ i < 2, div.getD i 0 ≤ 2 := fun i hi => (hdiv.2 i hi).2 (by norm_num)
  have hpos : ∀ p, IsPos div p → p.length = 2 ∧ ∀ i < 2, p.getD i 0 ≤ 1 := by
    intro p hp
    obtain ⟨p1, p2⟩ := isPos_iff.1 hp
    refine ⟨by omega, fun i hi => ?_⟩
    have := p2 i (by omega)
    have := h2 i hi
    omega
  have hne : ∀ p q, IsPos div p → IsPos div q → p ≠ q → p.getD 0 0 ≠ q.getD 0 0 ∨ p.getD 1 0 ≠ q.getD 1 0 := by
    intro p q hp hq hpq
    by_contra hcon
    push Not at hcon
    refine hpq (pos_ext hp hq fun i hi => ?_)
    have : i = 0 ∨ i = 1 := by omega
    rcases this with rfl | rfl
    · exact hcon.1
    · exact hcon.2
  -- a coordinate in which two of the cubes differ is small
  have hsmall : ∀ i < 2, ∀ p q, IsPos div p → IsPos div q → InCube 2 (fun _ => (-8 : ℚ)) 8 (11/2) p pt →
      InCube 2 (fun _ => (-8 : ℚ)) 8 (11/2) q pt → p.getD i 0 ≠ q.getD i 0 → |pt.getD i 0| ≤ 11/4 := by
    intro i hi p q hp hq ip iq hpq
    obtain ⟨p1, p2⟩ := ip i hi
    obtain ⟨q1, q2⟩ := iq i hi
    have b1 := (hpos p hp).2 i hi
    have b2 := (hpos q hq).2 i hi
    rw [abs_le, List.getD_eq_getElem?_getD]
    have : (p.getD i 0 = 0 ∧ q.getD i 0 = 1) ∨ (p.getD i 0 = 1 ∧ q.getD i 0 = 0) := by omega
    rcases this with ⟨e1, e2⟩ | ⟨e1, e2⟩
    · rw [e1] at p1 p2
      rw [e2] at q1 q2
      norm_num at p1 p2 q1 q2
      exact ⟨by linarith, by linarith⟩
    · rw [e1] at p1 p2
      rw [e2] at q1 q2
      norm_num at p1 p2 q1 q2
      exact ⟨by linarith, by linarith⟩
  have hx : |pt.getD 0 0| ≤ 11/4 := by
    by_cases h1 : a.getD 0 0 = b.getD 0 0
    · by_cases h3 : a.getD 0 0 = c.getD 0 0
      · exfalso
        have e1 := hne a b ha hb hab
        have e2 := hne a c ha hc hac
        have e3 := hne b c hb hc hbc
        have := (hpos a ha).2 1 (by omega)
        have := (hpos b hb).2 1 (by omega)
        have := (hpos c hc).2 1 (by omega)
        omega
      · exact hsmall 0 (by omega) a c ha hc ia ic h3
    · exact hsmall 0 (by omega) a b ha hb ia ib h1
  have hy : |pt.getD 1 0| ≤ 11/4 := by
    by_cases h1 : a.getD 1 0 = b.getD 1 0
    · by_cases h3 : a.getD 1 0 = c.getD 1 0
      · exfalso
        have e1 := hne a b ha hb hab
        have e2 := hne a c ha hc hac
        have e3 := hne b c hb hc hbc
        have := (hpos a ha).2 0 (by omega)
        have := (hpos b hb).2 0 (by omega)
        have := (hpos c hc).2 0 (by omega)
        omega
      · exact hsmall 1 (by omega) a c ha hc ia ic h3
    · exact hsmall 1 (by omega) a b ha hb ia ib h1
  have hout : ∀ pt ∈ ringCloud, ¬ (|pt.getD 0 0| ≤ 11/4 ∧ |pt.getD 1 0| ≤ 11/4) := by decide +kernel
  exact hout pt hpt ⟨hx, hy⟩

/-- The hypotheses are met by the ring.  The cycle around the ring has the bar `(9/2, 11/2)` on the second
page.  The difference of the two ways at the top has the bar `(9/2, 5)` there, becomes at `5` a difference of
cycles of two of the squares, and has the bar `(9/2, 11/2)` in the result. -/
example : MVInput ladderDist ladderD stableArgsort (11/2) 2 2 ringCloud 5
      (fun _ => -8) (fun _ => 8) 8 ∧
    NoTriple 2 (fun _ => (-8 : ℚ)) (fun _ => 8) 8 (11/2) ringCloud ∧
    (∀ a ∈ ringCloud, ∀ b ∈ ringCloud, ∀ i < 2, |a.getD i 0 - b.getD i 0| ≤ ladderD a b) ∧
    (∀ x y : ℚ, id x ≤ id y → x ≤ y) ∧
    (ringRun.map fun o => (o.persistentHomology.map fun B => B.barcode).drop 1 ++
        [(o.pages.hom 1 0 1).basis.barcode, (o.pages.hom 1 1 0).basis.barcode]) =
      .ok [[(9/2, 11/2), (9/2, 11/2), (5, 11/2)], [(5, 11/2), (5, 11/2)], [(9/2, 11/2), (9/2, 5)]] ∧
    (ringRun.bind fun o => (extension id o.env o.pages 1 0).map fun l => l.map fun M => M.cols) =
      .ok [[[0, 0], [0, 0]], [[0, 0], [1, 4]]] := by
  refine ⟨ring_input, ring_noTriple, ?_, fun x y h => h, ?_, ?_⟩
  · decide +kernel
  · decide +kernel
  · decide +kernel

end Permaviss
