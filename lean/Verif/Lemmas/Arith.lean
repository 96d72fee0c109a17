import Verif.Model.Arith
import Mathlib.Data.ZMod.Basic
import Mathlib.Algebra.Field.ZMod
import Mathlib.Tactic.Ring
import Mathlib.Tactic.Linarith
import Mathlib.Data.Int.GCD

/-! Lemmas about the Euclidean loop of `inv_mod_p`. -/

namespace Permaviss

/-- The loop stops within `|a| + 1` rounds. -/
theorem invLoop_isSome (fuel : Nat) : ∀ (a b x0 x1 : Int), a.natAbs < fuel →
    (invLoop fuel a b x0 x1).isSome := by
  induction fuel with
  | zero => intro a b x0 x1 h; omega
  | succ n ih =>
    intro a b x0 x1 h
    unfold invLoop
    split
    · rfl
    · rename_i ha
      apply ih
      rcases lt_or_gt_of_ne ha with h1 | h1
      · have h3 : 0 ≤ Int.fmod (-b) (-a) := Int.fmod_nonneg_of_pos _ (by omega)
        have h4 : Int.fmod (-b) (-a) < -a := Int.fmod_lt_of_pos _ (by omega)
        have h5 : Int.fmod (-b) (-a) = - Int.fmod b a := by
          rw [Int.neg_fmod_neg]
        omega
      · have h3 : 0 ≤ Int.fmod b a := Int.fmod_nonneg_of_pos _ h1
        have h4 : Int.fmod b a < a := Int.fmod_lt_of_pos _ h1
        omega

/-- Loop invariant for positive `a`. -/
structure InvState (a0 : Int) (p : Nat) (a b x0 x1 : Int) : Prop where
  a_nonneg : 0 ≤ a
  b_pos : 0 < b
  big : 2 ≤ b ∨ a = 0
  cb : (p : Int) ∣ b - x0 * a0
  ca : (p : Int) ∣ a - x1 * a0
  sgn : x0 * x1 ≤ 0
  sum : |x0| * a + |x1| * b = p
  fin : a = 0 → |x0| < p
  gcd : Int.gcd b a = Int.gcd p a0

theorem InvState.step {a0 : Int} {p : Nat} {a b x0 x1 : Int} (hp : 2 ≤ p)
    (h : InvState a0 p a b x0 x1) (ha : a ≠ 0) :
    InvState a0 p (Int.fmod b a) a x1 (x0 - Int.fdiv b a * x1) := by
  have hapos : 0 < a := lt_of_le_of_ne h.a_nonneg (Ne.symm ha)
  have hfd : Int.fdiv b a = b / a := Int.fdiv_eq_ediv_of_nonneg _ hapos.le
  have hfm : Int.fmod b a = b % a := Int.fmod_eq_emod_of_nonneg _ hapos.le
  rw [hfd, hfm]
  have hq : 0 ≤ b / a := Int.ediv_nonneg h.b_pos.le hapos.le
  have hdm : a * (b / a) + b % a = b := Int.mul_ediv_add_emod b a
  have hb2 : 2 ≤ b := by rcases h.big with h1 | h1
                         · exact h1
                         · exact absurd h1 ha
  have hmn : 0 ≤ b % a := Int.emod_nonneg _ ha
  have hml : b % a < a := Int.emod_lt_of_pos _ hapos
  have habs : |x0 - b / a * x1| = |x0| + b / a * |x1| := by
    have h1 := h.sgn
    rcases le_total 0 x0 with h0 | h0
    · rcases le_total 0 x1 with h2 | h2
      · have h3 : x0 * x1 = 0 := le_antisymm h1 (mul_nonneg h0 h2)
        rcases mul_eq_zero.mp h3 with h4 | h4
        · subst h4; simp only [zero_sub, abs_neg, abs_zero, zero_add]
          rw [abs_mul, abs_of_nonneg hq]
        · subst h4; simp
      · rw [abs_of_nonneg h0, abs_of_nonpos h2, abs_of_nonneg]
        · ring
        · nlinarith
    · rcases le_total 0 x1 with h2 | h2
      · rw [abs_of_nonpos h0, abs_of_nonneg h2, abs_of_nonpos]
        · ring
        · nlinarith
      · have h3 : x0 * x1 = 0 := le_antisymm h1 (mul_nonneg_of_nonpos_of_nonpos h0 h2)
        rcases mul_eq_zero.mp h3 with h4 | h4
        · subst h4; simp only [zero_sub, abs_neg, abs_zero, zero_add]
          rw [abs_mul, abs_of_nonneg hq]
        · subst h4; simp
  constructor
  · exact hmn
  · exact hapos
  · rcases Nat.lt_or_ge 1 a.natAbs with h1 | h1
    · left; omega
    · right; have : a = 1 := by omega
      subst this; simp
  · exact h.ca
  · have e : b % a - (x0 - b / a * x1) * a0 = (b - x0 * a0) - (b / a) * (a - x1 * a0) := by
      have : b % a = b - a * (b / a) := by omega
      rw [this]; ring
    rw [e]
    exact dvd_sub h.cb (Dvd.dvd.mul_left h.ca _)
  · have h1 := h.sgn
    nlinarith [mul_nonneg hq (mul_self_nonneg x1)]
  · rw [habs]
    have := h.sum
    have e : b % a = b - a * (b / a) := by omega
    rw [e]; linarith
  · intro h0
    have h1 := h.sum
    have h2 : 0 ≤ |x0| * a := mul_nonneg (abs_nonneg _) hapos.le
    have h3 : 0 ≤ |x1| := abs_nonneg _
    by_contra hc
    push Not at hc
    have : (2:Int) ≤ p := by exact_mod_cast hp
    nlinarith
  · rw [← h.gcd]
    rw [Int.gcd_comm a, Int.gcd_emod]

theorem InvState.init {a0 : Int} {p : Nat} (hp : 2 ≤ p) (ha : 0 < a0) :
    InvState a0 p a0 p 0 1 where
  a_nonneg := ha.le
  b_pos := by omega
  big := by left; exact_mod_cast hp
  cb := by simp
  ca := by simp
  sgn := by simp
  sum := by simp
  fin := by intro h; omega
  gcd := rfl

theorem invLoop_spec {a0 : Int} {p : Nat} (hp : 2 ≤ p) (fuel : Nat) : ∀ (a b x0 x1 : Int),
    InvState a0 p a b x0 x1 → ∀ r, invLoop fuel a b x0 x1 = some r →
    (p : Int) ∣ r.1 - r.2 * a0 ∧ |r.2| < p ∧ r.1 = Int.gcd p a0 := by
  induction fuel with
  | zero => intro a b x0 x1 _ r h; simp [invLoop] at h
  | succ n ih =>
    intro a b x0 x1 hs r h
    unfold invLoop at h
    split at h
    · rename_i ha
      cases h
      refine ⟨hs.cb, hs.fin ha, ?_⟩
      rw [← hs.gcd, ha]
      simp [abs_of_pos hs.b_pos]
    · rename_i ha
      exact ih _ _ _ _ (hs.step hp ha) r h

/-- With negative `a` every later value of `b` is negative. -/
theorem invLoop_neg (fuel : Nat) : ∀ (a b x0 x1 : Int), (a < 0 ∨ (a = 0 ∧ b < 0)) →
    ∀ r, invLoop fuel a b x0 x1 = some r → r.1 < 0 := by
  induction fuel with
  | zero => intro a b x0 x1 _ r h; simp [invLoop] at h
  | succ n ih =>
    intro a b x0 x1 hs r h
    unfold invLoop at h
    split at h
    · rename_i ha
      cases h
      rcases hs with h1 | h1
      · omega
      · exact h1.2
    · rename_i ha
      have haneg : a < 0 := by omega
      refine ih _ _ _ _ ?_ r h
      have h3 : 0 ≤ Int.fmod (-b) (-a) := Int.fmod_nonneg_of_pos _ (by omega)
      have h5 : Int.fmod (-b) (-a) = - Int.fmod b a := by rw [Int.neg_fmod_neg]
      omega

/-- All outcomes of `inv_mod_p` for positive `a`. -/
theorem invModP_pos {a : Int} {p : Nat} (hp : 2 ≤ p) (ha : 0 < a) :
    (Int.gcd a p = 1 → ∃ m, invModP a p = .ok m ∧ 0 ≤ m ∧ m < p ∧ (p : Int) ∣ m * a - 1) ∧
    (Int.gcd a p ≠ 1 → invModP a p = .error .valueError) := by
  have hfm : Int.fmod a p = a % p := Int.fmod_eq_emod_of_nonneg _ (by omega)
  obtain ⟨r, hr⟩ := Option.isSome_iff_exists.mp
    (invLoop_isSome (a.natAbs + 1) a p 0 1 (by omega))
  obtain ⟨h1, h2, h3⟩ := invLoop_spec hp _ _ _ _ _ (InvState.init hp ha) r hr
  rw [Int.gcd_comm] at h3
  constructor
  · intro hg
    have hne : a % p ≠ 0 := by
      intro h0
      have hd : (p : Int) ∣ a := Int.dvd_of_emod_eq_zero h0
      have : Int.gcd a p = p := by
        exact_mod_cast Int.gcd_eq_right (by omega) hd
      omega
    rw [hg] at h3
    unfold invModP
    rw [hfm, if_neg hne, hr]
    simp only [h3, Nat.cast_one, ne_eq, not_true_eq_false, if_false]
    rw [h3] at h1
    have h2' := abs_lt.mp h2
    split
    · refine ⟨_, rfl, by omega, by omega, ?_⟩
      have e : (r.2 + p) * a - 1 = p * a - (((1:Nat):Int) - r.2 * a) := by push_cast; ring
      rw [e]; exact dvd_sub (dvd_mul_right _ _) h1
    · refine ⟨_, rfl, by omega, by omega, ?_⟩
      have e : r.2 * a - 1 = - (((1:Nat):Int) - r.2 * a) := by push_cast; ring
      rw [e]; exact (dvd_neg).mpr h1
  · intro hg
    unfold invModP
    split
    · rfl
    · rw [hr]
      simp only [h3]
      rw [if_pos]
      exact_mod_cast hg

theorem invModP_neg {a : Int} {p : Nat} (ha : a < 0) : invModP a p = .error .valueError := by
  obtain ⟨r, hr⟩ := Option.isSome_iff_exists.mp
    (invLoop_isSome (a.natAbs + 1) a p 0 1 (by omega))
  have h := invLoop_neg _ _ _ _ _ (Or.inl ha) r hr
  unfold invModP
  split
  · rfl
  · rw [hr]
    simp only
    rw [if_pos]; omega

/-- The form used by the elimination code: entries in `[1, p)`. -/
theorem invModP_ok {a : Int} {p : Nat} (hp : p.Prime) (h0 : 0 < a) (h1 : a < p) :
    ∃ m, invModP a p = .ok m ∧ 0 ≤ m ∧ m < p ∧ (m : ZMod p) * (a : ZMod p) = 1 := by
  have hg : Int.gcd a p = 1 := by
    have : Nat.Coprime p a.natAbs := by
      rw [Nat.Prime.coprime_iff_not_dvd hp]
      intro hd
      have := Nat.le_of_dvd (by omega) hd
      omega
    rw [Int.gcd_comm]; simpa [Int.gcd] using this
  obtain ⟨m, hm, h2, h3, h4⟩ := (invModP_pos hp.two_le h0).1 hg
  refine ⟨m, hm, h2, h3, ?_⟩
  have := (ZMod.intCast_zmod_eq_zero_iff_dvd (m * a - 1) p).mpr h4 
  push_cast at this
  exact sub_eq_zero.mp this

end Permaviss
