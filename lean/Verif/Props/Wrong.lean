import Verif.Props.MV

/-!
# A run that returns a wrong barcode in degree two (C54)

Ten points of a space of dimension five, covered by four cubes.  Four of the points form a loop `X` and lie in
all four cubes.  Each two cubes next to each other share one more point, which is close to all of `X` and so
closes the loop in their intersection at once; two such points are far from each other.  Hence each cube contains
a sphere, the suspension of `X`, and in the union of the four cubes one of the four spheres is a combination of
the others: `X` on the triple intersections is a class of degree one whose second differential is not zero.

On the intersections of two cubes next to each other there are no classes of degree one, and
`cech_diff_and_lift_local` skips pieces without classes: the discs bounded by `X` are not found, the second
differential is computed as zero, and four bars are returned instead of three.
-/

namespace Permaviss

/-- The squared Euclidean distance in dimension five. -/
def joinSq (a b : List ℚ) : ℚ := ((List.range 5).map fun i => (a.getD i 0 - b.getD i 0) ^ 2).sum

/-- The Euclidean distance, rounded up to a whole number. -/
def joinD (a b : List ℚ) : ℚ := if a = b then 0 else ((Nat.sqrt (joinSq a b).num.toNat + 1 : ℕ) : ℚ)

def joinDist (c : List (List ℚ)) : List (List ℚ) := c.map fun a => c.map (joinD a)

/-- The loop, the four points shared by two cubes each, and two points far from the others. -/
def joinCloud : List (List ℚ) :=
  [[0, 0, 0, 70, 0], [0, 0, 0, 0, 70], [0, 0, 0, -70, 0], [0, 0, 0, 0, -70],
   [0, 51, 45, 0, 0], [51, 0, -45, 0, 0], [0, -51, 45, 0, 0], [-51, 0, -45, 0, 0],
   [150, 150, 0, 0, 0], [-150, -150, 0, 0, 0]]

theorem joinDist_table : IsDistTable joinDist joinD := by
  refine ⟨fun c => rfl, fun a b => ?_⟩
  unfold joinD
  split_ifs
  · exact le_rfl
  · positivity

/-- The distances are the Euclidean ones up to one. -/
example : ∀ a ∈ joinCloud, ∀ b ∈ joinCloud, a ≠ b →
    joinSq a b ≤ joinD a b ^ 2 ∧ (joinD a b - 1) ^ 2 ≤ joinSq a b := by decide +kernel

def joinLo (i : ℕ) : ℚ := if i < 2 then -150 else if i = 2 then -45 else -70

def joinHi (i : ℕ) : ℚ := if i < 2 then 150 else if i = 2 then 45 else 70

/-- The cloud is a valid input. -/
theorem join_input : MVInput joinDist joinD stableArgsort 100 2 5 joinCloud 2 joinLo joinHi 150 where
  prime := by decide
  dist := joinDist_table
  sort := stableArgsort_isArgsort
  radius := by norm_num
  points := by simp [joinCloud]
  dim_pos := by norm_num
  div_pos := by norm_num
  box := by
    have hall : ∀ pt ∈ joinCloud, ∀ d < 5, joinLo d ≤ pt.getD d 0 ∧ pt.getD d 0 ≤ joinHi d := by decide +kernel
    refine ⟨fun d hd => ⟨?_, ?_⟩, fun d hd => ⟨?_, ?_⟩, ⟨⟨0, by omega, by norm_num [joinLo, joinHi]⟩, ?_⟩⟩
    · have : ∀ d < 5, ∃ pt ∈ joinCloud, joinLo d = pt.getD d 0 := by decide +kernel
      exact this d hd
    · rintro x ⟨pt, hpt, rfl⟩
      exact (hall pt hpt d hd).1
    · have : ∀ d < 5, ∃ pt ∈ joinCloud, joinHi d = pt.getD d 0 := by decide +kernel
      exact this d hd
    · rintro x ⟨pt, hpt, rfl⟩
      exact (hall pt hpt d hd).2
    · rintro x ⟨d, hd, rfl⟩
      have : ∀ d < 5, joinHi d - joinLo d ≤ (2 : ℕ) * 150 := by decide +kernel
      exact this d hd
  side_pos := by norm_num

/-- The result of `create_MV_ss`. -/
theorem join_run : (createMVss joinDist stableArgsort id 100 3 2 100 5 joinCloud 2).map
      (fun o => o.persistentHomology.map Basis.barcode) =
      .ok [List.replicate 3 (0, 100) ++ List.replicate 7 (0, 98), List.replicate 9 (98, 99),
        List.replicate 4 (99, 100)] := by
  decide +kernel

/-- The result of the ordinary computation. -/
theorem join_direct : (localPersistentHomology joinDist stableArgsort id joinCloud 100 3 5).map
      (fun o => o.ph.hom.map Basis.barcode) =
      .ok [List.replicate 3 (0, 100) ++ List.replicate 7 (0, 98), List.replicate 9 (98, 99),
        List.replicate 3 (99, 100), []] := by
  decide +kernel

/-- **C54 fails in degree two although `create_MV_ss` returns**: the cloud is a valid input, the overlap is
`max_r` and the distances bound the differences of the coordinates.  The barcodes of degrees zero and one are
right, the barcode of degree two has four bars where the ordinary computation has three. -/
theorem C54_violated_degree_two :
    MVInput joinDist joinD stableArgsort 100 2 5 joinCloud 2 joinLo joinHi 150 ∧
    (∀ a ∈ joinCloud, ∀ b ∈ joinCloud, ∀ i < 5, |a.getD i 0 - b.getD i 0| ≤ joinD a b) ∧
    (createMVss joinDist stableArgsort id 100 3 2 100 5 joinCloud 2).map
      (fun o => o.persistentHomology.map Basis.barcode) =
      .ok [List.replicate 3 (0, 100) ++ List.replicate 7 (0, 98), List.replicate 9 (98, 99),
        List.replicate 4 (99, 100)] ∧
    (localPersistentHomology joinDist stableArgsort id joinCloud 100 3 5).map
      (fun o => o.ph.hom.map Basis.barcode) =
      .ok [List.replicate 3 (0, 100) ++ List.replicate 7 (0, 98), List.replicate 9 (98, 99),
        List.replicate 3 (99, 100), []] := by
  refine ⟨join_input, ?_, join_run, join_direct⟩
  decide +kernel

end Permaviss
