import Verif.Props.Strip

/-!
# A run that raises in the extension, with two cubes (C69)

Ten points in space, covered by two cubes side by side.  A loop of four points close to both cubes is a
class of degree one in each of the two pieces and in their intersection, so that on the second page nothing
is left of it in the first column.  The method `lift_to_page` leaves its loop as soon as it meets a module
which is zero, and `extension` then never takes away the part of its chains that bounds through the
intersection: the test at its end raises `RuntimeError`.
-/

namespace Permaviss

/-- The squared Euclidean distance in space. -/
def brkSq (a b : List ℚ) : ℚ := ((List.range 3).map fun i => (a.getD i 0 - b.getD i 0) ^ 2).sum

/-- The Euclidean distance, rounded up to two decimals. -/
def brkD (a b : List ℚ) : ℚ :=
  if a = b then 0 else (((Nat.sqrt (10000 * brkSq a b).floor.toNat) + 1 : ℕ) : ℚ) / 100

def brkDist (c : List (List ℚ)) : List (List ℚ) := c.map fun a => c.map (brkD a)

def brkCloud : List (List ℚ) :=
  [[0, -9/2, 15/4], [0, 9/2, 15/4], [0, 39/10, -15/4], [0, -39/10, -15/4], [0, 3, 54/4],
   [-11/2, -1/2, 9], [11/2, 1/2, 9], [11/2, 0, 0], [-20, 0, 5], [20, 0, 5]]

def brkRun : Except PyErr (MVOut ℚ) :=
  createMVss brkDist stableArgsort id (21/2) 2 2 (21/2) 3 brkCloud 5

theorem brkDist_table : IsDistTable brkDist brkD := by
  refine ⟨fun c => rfl, fun a b => ?_⟩
  unfold brkD
  split_ifs
  · exact le_rfl
  · positivity

/-- The distances are the Euclidean ones up to one hundredth. -/
example : ∀ a ∈ brkCloud, ∀ b ∈ brkCloud, a ≠ b →
    brkSq a b ≤ brkD a b ^ 2 ∧ (brkD a b - 1/100) ^ 2 ≤ brkSq a b := by decide +kernel

def brkLo (i : ℕ) : ℚ := if i = 0 then -20 else if i = 1 then -9/2 else -15/4

def brkHi (i : ℕ) : ℚ := if i = 0 then 20 else if i = 1 then 9/2 else 54/4

/-- The cloud is a valid input. -/
theorem brk_input : MVInput brkDist brkD stableArgsort (21/2) 2 3 brkCloud 5 brkLo brkHi 20 where
  prime := by decide
  dist := brkDist_table
  sort := stableArgsort_isArgsort
  radius := by norm_num
  points := by simp [brkCloud]
  dim_pos := by norm_num
  div_pos := by norm_num
  box := by
    have hall : ∀ pt ∈ brkCloud, ∀ d < 3, brkLo d ≤ pt.getD d 0 ∧ pt.getD d 0 ≤ brkHi d := by decide +kernel
    refine ⟨fun d hd => ⟨?_, ?_⟩, fun d hd => ⟨?_, ?_⟩, ⟨⟨0, by omega, by norm_num [brkLo, brkHi]⟩, ?_⟩⟩
    · have : ∀ d < 3, ∃ pt ∈ brkCloud, brkLo d = pt.getD d 0 := by decide +kernel
      exact this d hd
    · rintro x ⟨pt, hpt, rfl⟩
      exact (hall pt hpt d hd).1
    · have : ∀ d < 3, ∃ pt ∈ brkCloud, brkHi d = pt.getD d 0 := by decide +kernel
      exact this d hd
    · rintro x ⟨pt, hpt, rfl⟩
      exact (hall pt hpt d hd).2
    · rintro x ⟨d, hd, rfl⟩
      have : ∀ d < 3, brkHi d - brkLo d ≤ (2 : ℕ) * 20 := by decide +kernel
      exact this d hd
  side_pos := by norm_num

/-- **C69 fails**: the cloud is a valid input, the overlap is `max_r`, the distances bound the differences of
the coordinates and the cover has two cubes.  All pages are computed, the first column of the second page is
zero in degree one while it is not zero on the first page, and `create_MV_ss` raises `RuntimeError`.  The
ordinary computation returns barcodes, with one bar in degree one. -/
theorem C69_violated : MVInput brkDist brkD stableArgsort (21/2) 2 3 brkCloud 5 brkLo brkHi 20 ∧
    (∀ a ∈ brkCloud, ∀ b ∈ brkCloud, ∀ i < 3, |a.getD i 0 - b.getD i 0| ≤ brkD a b) ∧
    (createEnv brkDist stableArgsort id (21/2) 2 2 (21/2) 3 brkCloud 5).bind (fun E =>
      (allPages id E E.columns.length).map fun S => (List.range 2).map E.spx ++
        [(E.firstBars 1 0).length, (S.hom 1 0 1).basis.dim, (S.hom 1 1 0).basis.dim]) = .ok [2, 1, 1, 0, 1] ∧
    brkRun.map (fun o => o.persistentHomology.map Basis.barcode) = .error .runtimeError ∧
    (localPersistentHomology brkDist stableArgsort id brkCloud (21/2) 2 5).map
      (fun o => (o.ph.hom.map Basis.barcode).drop 1) = .ok [[(43/5, 987/100)], [(911/100, 21/2)]] := by
  refine ⟨brk_input, by decide +kernel, by decide +kernel, by decide +kernel, by decide +kernel⟩

end Permaviss
