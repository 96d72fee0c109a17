import Verif.Spec.Rounding
import Mathlib.Tactic.Linarith
import Mathlib.Tactic.FieldSimp
import Mathlib.Tactic.Ring
import Mathlib.Tactic.NormNum
import Mathlib.Tactic.Positivity

/-!
# Doubles and integers are accurate
-/

namespace Permaviss

theorem nearestEven_error (y : ℚ) : |(nearestEven y : ℚ) - y| ≤ 1 / 2 := by
  have h1 := Int.floor_le y
  have h2 := Int.lt_floor_add_one y
  unfold nearestEven
  rw [abs_le]
  split
  · constructor <;> linarith
  · split
    · push_cast; constructor <;> linarith
    · split
      · constructor <;> linarith
      · push_cast; constructor <;> linarith

theorem nearestEven_mono : Monotone nearestEven := by
  intro x y h
  have hf := Int.floor_mono h
  rcases hf.lt_or_eq with hlt | heq
  · have a : nearestEven x ≤ ⌊x⌋ + 1 := by
      unfold nearestEven
      split
      · omega
      · split
        · omega
        · split <;> omega
    have b : ⌊y⌋ ≤ nearestEven y := by
      unfold nearestEven
      split
      · omega
      · split
        · omega
        · split <;> omega
    omega
  · unfold nearestEven
    rw [heq]
    by_cases h1 : y - ⌊y⌋ < 1 / 2
    · rw [if_pos h1, if_pos (by linarith)]
    · rw [if_neg h1]
      by_cases h2 : 1 / 2 < y - ⌊y⌋
      · rw [if_pos h2]
        split
        · omega
        · split
          · omega
          · split <;> omega
      · rw [if_neg h2]
        by_cases h3 : x - ⌊y⌋ < 1 / 2
        · rw [if_pos h3]
          split <;> omega
        · rw [if_neg h3, if_neg (by linarith)]

theorem nearestEven_int (n : ℤ) : nearestEven n = n := by
  unfold nearestEven
  rw [Int.floor_intCast, if_pos (by norm_num)]

theorem nearestEven_neg (y : ℚ) : nearestEven (-y) = -nearestEven y := by
  have h1 := Int.floor_le y
  have h2 := Int.lt_floor_add_one y
  by_cases h0 : y = ⌊y⌋
  · rw [h0, ← Int.cast_neg, nearestEven_int, nearestEven_int]
  have hlt : (⌊y⌋ : ℚ) < y := lt_of_le_of_ne h1 (Ne.symm h0)
  have hf : ⌊-y⌋ = -⌊y⌋ - 1 := by
    rw [Int.floor_eq_iff]
    push_cast
    constructor <;> linarith
  unfold nearestEven
  rw [hf]
  push_cast
  rcases lt_trichotomy (y - ⌊y⌋) (1 / 2) with h | h | h
  · rw [if_neg (by linarith), if_pos (by linarith), if_pos h]
    ring
  · have a1 : ¬ (-y - (-(⌊y⌋ : ℚ) - 1) < 1 / 2) := by linarith
    have a2 : ¬ (1 / 2 < -y - (-(⌊y⌋ : ℚ) - 1)) := by linarith
    have a3 : ¬ (y - (⌊y⌋ : ℚ) < 1 / 2) := by linarith
    have a4 : ¬ (1 / 2 < y - (⌊y⌋ : ℚ)) := by linarith
    rw [if_neg a1, if_neg a2, if_neg a3, if_neg a4]
    split
    · rw [if_neg (by omega)]; ring
    · rw [if_pos (by omega)]; ring
  · rw [if_pos (by linarith), if_neg (by linarith), if_pos h]
    ring

theorem ulp_pos (x : ℚ) : 0 < ulp x := zpow_pos (by norm_num) _

theorem ulp_neg (x : ℚ) : ulp (-x) = ulp x := by unfold ulp; rw [abs_neg]

theorem toDouble_neg (x : ℚ) : toDouble (-x) = -toDouble x := by
  unfold toDouble
  by_cases h : x = 0
  · simp [h]
  · rw [if_neg h, if_neg (by simpa using h), ulp_neg, neg_div, nearestEven_neg]
    push_cast
    ring

/-- A positive number has between `2 ^ 52` and `2 ^ 53` units in the last place. -/
theorem ulp_bounds {x : ℚ} (hx : 0 < x) :
    2 ^ 52 * ulp x = 2 ^ Int.log 2 x ∧ 2 ^ 52 * ulp x ≤ x ∧ x < 2 ^ 53 * ulp x := by
  have hl := Int.zpow_log_le_self (b := 2) (r := x) (by norm_num) hx
  have hu := Int.lt_zpow_succ_log_self (b := 2) (by norm_num) x
  have e1 : (2 : ℚ) ^ 52 * ulp x = 2 ^ Int.log 2 x := by
    unfold ulp
    rw [abs_of_pos hx, zpow_sub₀ (by norm_num)]
    rw [show ((2 : ℚ) ^ (52 : ℤ)) = 2 ^ 52 by norm_cast]
    field_simp
  push_cast at hl hu
  refine ⟨e1, by rw [e1]; exact hl, ?_⟩
  rw [zpow_add_one₀ (by norm_num), ← e1] at hu
  linarith

theorem toDouble_pos_bounds {x : ℚ} (hx : 0 < x) :
    2 ^ 52 * ulp x ≤ toDouble x ∧ toDouble x ≤ 2 ^ 53 * ulp x := by
  obtain ⟨-, h2, h3⟩ := ulp_bounds hx
  have hu := ulp_pos x
  unfold toDouble
  rw [if_neg hx.ne']
  have a : (2 ^ 52 : ℤ) ≤ nearestEven (x / ulp x) := by
    rw [← nearestEven_int (2 ^ 52)]
    apply nearestEven_mono
    rw [le_div_iff₀ hu]
    push_cast
    exact h2
  have b : nearestEven (x / ulp x) ≤ (2 ^ 53 : ℤ) := by
    rw [← nearestEven_int (2 ^ 53)]
    apply nearestEven_mono
    rw [div_le_iff₀ hu]
    push_cast
    exact h3.le
  have a' : ((2 : ℚ) ^ 52) ≤ nearestEven (x / ulp x) := by exact_mod_cast a
  have b' : (nearestEven (x / ulp x) : ℚ) ≤ 2 ^ 53 := by exact_mod_cast b
  exact ⟨mul_le_mul_of_nonneg_right a' hu.le, mul_le_mul_of_nonneg_right b' hu.le⟩

theorem toDouble_mono_pos {x y : ℚ} (hx : 0 < x) (h : x ≤ y) : toDouble x ≤ toDouble y := by
  have hy := hx.trans_le h
  have hlog := Int.log_mono_right (b := 2) hx h
  rcases hlog.lt_or_eq with hlt | heq
  · refine (toDouble_pos_bounds hx).2.trans (le_trans ?_ (toDouble_pos_bounds hy).1)
    rw [(ulp_bounds hy).1, show (2 : ℚ) ^ 53 * ulp x = 2 * (2 ^ 52 * ulp x) by ring, (ulp_bounds hx).1,
      show (2 : ℚ) * 2 ^ Int.log 2 x = 2 ^ (Int.log 2 x + 1) by rw [zpow_add_one₀ (by norm_num)]; ring]
    exact zpow_le_zpow_right₀ (by norm_num) (by omega)
  · have hu : ulp x = ulp y := by unfold ulp; rw [abs_of_pos hx, abs_of_pos hy, heq]
    unfold toDouble
    rw [if_neg hx.ne', if_neg hy.ne', hu]
    refine mul_le_mul_of_nonneg_right ?_ (ulp_pos y).le
    exact_mod_cast nearestEven_mono (div_le_div_of_nonneg_right h (ulp_pos y).le)

theorem toDouble_pos {x : ℚ} (hx : 0 < x) : 0 < toDouble x :=
  (mul_pos (by positivity) (ulp_pos x)).trans_le (toDouble_pos_bounds hx).1

theorem toDouble_zero : toDouble 0 = 0 := by unfold toDouble; rw [if_pos rfl]

theorem toDouble_mono : Monotone toDouble := by
  intro x y h
  rcases lt_trichotomy x 0 with hx | rfl | hx
  · rcases lt_trichotomy y 0 with hy | rfl | hy
    · have := toDouble_mono_pos (x := -y) (y := -x) (by linarith) (by linarith)
      rw [toDouble_neg, toDouble_neg] at this
      linarith
    · have := toDouble_pos (x := -x) (by linarith)
      rw [toDouble_neg] at this
      rw [toDouble_zero]; linarith
    · have h1 := toDouble_pos (x := -x) (by linarith)
      have h2 := toDouble_pos hy
      rw [toDouble_neg] at h1
      linarith
  · rcases h.lt_or_eq with hy | rfl
    · rw [toDouble_zero]; exact (toDouble_pos hy).le
    · exact le_rfl
  · exact toDouble_mono_pos hx h

theorem toDouble_error (x : ℚ) : |toDouble x - x| ≤ 1 / 2 ^ 53 * |x| := by
  have key : ∀ x : ℚ, 0 < x → |toDouble x - x| ≤ 1 / 2 ^ 53 * |x| := by
    intro x hx
    have hu := ulp_pos x
    have h2 := (ulp_bounds hx).2.1
    have he := nearestEven_error (x / ulp x)
    unfold toDouble
    rw [if_neg hx.ne', abs_of_pos hx]
    have e : (nearestEven (x / ulp x) : ℚ) * ulp x - x = (nearestEven (x / ulp x) - x / ulp x) * ulp x := by
      field_simp
    rw [e, abs_mul, abs_of_pos hu]
    calc _ ≤ 1 / 2 * ulp x := mul_le_mul_of_nonneg_right he hu.le
      _ = 1 / 2 ^ 53 * (2 ^ 52 * ulp x) := by ring
      _ ≤ 1 / 2 ^ 53 * x := mul_le_mul_of_nonneg_left h2 (by positivity)
  rcases lt_trichotomy x 0 with hx | rfl | hx
  · have := key (-x) (by linarith)
    rw [toDouble_neg, abs_neg, ← neg_add', abs_neg] at this
    rwa [← sub_eq_add_neg] at this
  · rw [toDouble_zero]; simp
  · exact key x hx

theorem truncate_mono : Monotone truncate := by
  intro x y h
  unfold truncate
  split
  · rw [if_pos (by linarith)]
    exact_mod_cast Int.floor_mono h
  · split
    · next h1 h2 =>
      have a : ⌈x⌉ ≤ 0 := Int.ceil_le.2 (by push_cast; linarith)
      have b : 0 ≤ ⌊y⌋ := Int.le_floor.2 (by push_cast; linarith)
      exact_mod_cast a.trans b
    · exact_mod_cast Int.ceil_mono h

theorem truncate_error (x : ℚ) : |truncate x - x| ≤ 1 := by
  unfold truncate
  rw [abs_le]
  split
  · have := Int.floor_le x
    have := Int.lt_floor_add_one x
    constructor <;> linarith
  · have := Int.le_ceil x
    have := Int.ceil_lt_add_one x
    constructor <;> linarith

theorem double_accurate : Rounding.double.Accurate (1 / 2 ^ 53) 0 :=
  ⟨toDouble_mono, monotone_id, toDouble_error, fun x => by simp [Rounding.double]⟩

theorem integer_accurate : Rounding.integer.Accurate (1 / 2 ^ 53) 1 :=
  ⟨toDouble_mono, truncate_mono, toDouble_error, truncate_error⟩

end Permaviss
