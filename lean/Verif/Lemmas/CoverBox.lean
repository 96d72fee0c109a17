import Verif.Lemmas.Cover
import Mathlib.Tactic.Ring
import Mathlib.Tactic.Linarith
import Mathlib.Algebra.Order.Field.Basic
import Mathlib.Tactic.FieldSimp

/-! The geometry of `generate_cover`. -/

namespace Permaviss

section

variable {K : Type} [Field K] [LinearOrder K]

theorem foldr_min_spec (a : K) (l : List K) :
    (l.foldr min a = a ∨ l.foldr min a ∈ l) ∧ l.foldr min a ≤ a ∧ ∀ x ∈ l, l.foldr min a ≤ x := by
  induction l with
  | nil => simp
  | cons b l ih =>
    simp only [List.foldr_cons, List.mem_cons]
    obtain ⟨h1, h2, h3⟩ := ih
    refine ⟨?_, le_trans (min_le_right _ _) h2, ?_⟩
    · rcases min_choice b (l.foldr min a) with h | h
      · rw [h]; exact Or.inr (Or.inl rfl)
      · rw [h]; rcases h1 with h1 | h1
        · exact Or.inl h1
        · exact Or.inr (Or.inr h1)
    · rintro x (rfl | hx)
      · exact min_le_left _ _
      · exact le_trans (min_le_right _ _) (h3 x hx)

theorem foldr_max_spec (a : K) (l : List K) :
    (l.foldr max a = a ∨ l.foldr max a ∈ l) ∧ a ≤ l.foldr max a ∧ ∀ x ∈ l, x ≤ l.foldr max a := by
  induction l with
  | nil => simp
  | cons b l ih =>
    simp only [List.foldr_cons, List.mem_cons]
    obtain ⟨h1, h2, h3⟩ := ih
    refine ⟨?_, le_trans h2 (le_max_right _ _), ?_⟩
    · rcases max_choice b (l.foldr max a) with h | h
      · rw [h]; exact Or.inr (Or.inl rfl)
      · rw [h]; rcases h1 with h1 | h1
        · exact Or.inl h1
        · exact Or.inr (Or.inr h1)
    · rintro x (rfl | hx)
      · exact le_max_left _ _
      · exact le_trans (h3 x hx) (le_max_right _ _)

variable [FloorRing K]

theorem minCoord_isLeast {cloud : List (List K)} (hne : cloud ≠ []) (d : Nat) :
    IsLeast {x | ∃ pt ∈ cloud, x = pt.getD d 0} (minCoord cloud d) := by
  match cloud, hne with
  | c :: cl, _ =>
    have h := foldr_min_spec (c.getD d 0) ((c :: cl).map fun x => x.getD d 0)
    simp only [minCoord, List.headD_cons]
    refine ⟨?_, ?_⟩
    · rcases h.1 with h1 | h1
      · exact ⟨c, by simp, h1⟩
      · obtain ⟨pt, h2, h3⟩ := List.mem_map.1 h1
        exact ⟨pt, h2, h3.symm⟩
    · rintro x ⟨pt, hpt, rfl⟩
      exact h.2.2 _ (List.mem_map.2 ⟨pt, hpt, rfl⟩)

theorem maxCoord_isGreatest {cloud : List (List K)} (hne : cloud ≠ []) (d : Nat) :
    IsGreatest {x | ∃ pt ∈ cloud, x = pt.getD d 0} (maxCoord cloud d) := by
  match cloud, hne with
  | c :: cl, _ =>
    have h := foldr_max_spec (c.getD d 0) ((c :: cl).map fun x => x.getD d 0)
    simp only [maxCoord, List.headD_cons]
    refine ⟨?_, ?_⟩
    · rcases h.1 with h1 | h1
      · exact ⟨c, by simp, h1⟩
      · obtain ⟨pt, h2, h3⟩ := List.mem_map.1 h1
        exact ⟨pt, h2, h3.symm⟩
    · rintro x ⟨pt, hpt, rfl⟩
      exact h.2.2 _ (List.mem_map.2 ⟨pt, hpt, rfl⟩)

theorem minCoord_le_maxCoord {cloud : List (List K)} (hne : cloud ≠ []) (d : Nat) :
    minCoord cloud d ≤ maxCoord cloud d :=
  (minCoord_isLeast hne d).2 (maxCoord_isGreatest hne d).1

variable [IsStrictOrderedRing K]

theorem maxLength_isGreatest {cloud : List (List K)} (hne : cloud ≠ []) {dim : Nat} (hd : 0 < dim) :
    IsGreatest {x | ∃ d < dim, x = maxCoord cloud d - minCoord cloud d} (maxLength dim cloud) := by
  have habs : ∀ d, |maxCoord cloud d - minCoord cloud d| = maxCoord cloud d - minCoord cloud d :=
    fun d => abs_of_nonneg (sub_nonneg.2 (minCoord_le_maxCoord hne d))
  have h := foldr_max_spec 0 ((List.range dim).map fun d => |maxCoord cloud d - minCoord cloud d|)
  have hle : ∀ d < dim, maxCoord cloud d - minCoord cloud d ≤ maxLength dim cloud := by
    intro d hd
    rw [← habs]
    exact h.2.2 _ (List.mem_map.2 ⟨d, List.mem_range.2 hd, rfl⟩)
  refine ⟨?_, ?_⟩
  · rcases h.1 with h1 | h1
    · refine ⟨0, hd, ?_⟩
      have h2 := hle 0 hd
      have h3 := minCoord_le_maxCoord hne 0
      unfold maxLength at *
      rw [h1] at h2 ⊢
      linarith
    · obtain ⟨d, h2, h3⟩ := List.mem_map.1 h1
      rw [habs] at h3
      exact ⟨d, List.mem_range.1 h2, h3.symm⟩
  · rintro x ⟨d, hd', rfl⟩
    exact hle d hd'

/-- The corners and the side computed by the code are the ones of the specification. -/
theorem coverSide_isBox {maxDiv dim : Nat} {cloud : List (List K)} (hne : cloud ≠ []) (hd : 0 < dim)
    (hm : 0 < maxDiv) :
    IsBox maxDiv dim cloud (minCoord cloud) (maxCoord cloud) (coverSide maxDiv dim cloud) := by
  refine ⟨fun d _ => minCoord_isLeast hne d, fun d _ => maxCoord_isGreatest hne d, ?_⟩
  have : (maxDiv : K) ≠ 0 := by
    have : (0 : K) < maxDiv := by exact_mod_cast hm
    exact this.ne'
  have h : (maxDiv : K) * coverSide maxDiv dim cloud = maxLength dim cloud := by
    unfold coverSide; field_simp
  rw [h]
  exact maxLength_isGreatest hne hd

theorem isBox_unique {maxDiv dim : Nat} {cloud : List (List K)} {lo hi lo' hi' : Nat → K} {side side' : K}
    (hm : 0 < maxDiv) (h : IsBox maxDiv dim cloud lo hi side) (h' : IsBox maxDiv dim cloud lo' hi' side') :
    (∀ d < dim, lo d = lo' d) ∧ (∀ d < dim, hi d = hi' d) ∧ side = side' := by
  have h1 : ∀ d < dim, lo d = lo' d := fun d hd => (h.isLo d hd).unique (h'.isLo d hd)
  have h2 : ∀ d < dim, hi d = hi' d := fun d hd => (h.isHi d hd).unique (h'.isHi d hd)
  refine ⟨h1, h2, ?_⟩
  have e : {x | ∃ d < dim, x = hi d - lo d} = {x | ∃ d < dim, x = hi' d - lo' d} := by
    ext x
    constructor
    · rintro ⟨d, hd, rfl⟩; exact ⟨d, hd, by rw [h1 d hd, h2 d hd]⟩
    · rintro ⟨d, hd, rfl⟩; exact ⟨d, hd, by rw [h1 d hd, h2 d hd]⟩
  have h3 := h.isSide
  rw [e] at h3
  have h4 := h3.unique h'.isSide
  have : (maxDiv : K) ≠ 0 := by
    have : (0 : K) < maxDiv := by exact_mod_cast hm
    exact this.ne'
  exact mul_left_cancel₀ this h4

theorem coverSide_nonneg {maxDiv dim : Nat} {cloud : List (List K)} :
    0 ≤ coverSide maxDiv dim cloud := by
  unfold coverSide
  refine div_nonneg ?_ (by exact_mod_cast Nat.zero_le _)
  exact (foldr_max_spec 0 _).2.1

theorem coverDiv_isDiv {maxDiv dim : Nat} {cloud : List (List K)} (hne : cloud ≠ [])
    (hs : 0 < coverSide maxDiv dim cloud) :
    IsDiv dim (minCoord cloud) (maxCoord cloud) (coverSide maxDiv dim cloud)
      (coverDiv maxDiv dim cloud) := by
  refine ⟨by simp [coverDiv], ?_⟩
  intro d hd
  have e : (coverDiv maxDiv dim cloud).getD d 0 =
      (⌈(maxCoord cloud d - minCoord cloud d) / coverSide maxDiv dim cloud⌉).toNat := by
    unfold coverDiv
    rw [List.getD_eq_getElem?_getD]
    simp [hd]
  have hw : 0 ≤ (maxCoord cloud d - minCoord cloud d) / coverSide maxDiv dim cloud :=
    div_nonneg (sub_nonneg.2 (minCoord_le_maxCoord hne d)) hs.le
  rw [e]
  refine ⟨?_, ?_⟩
  · show _ ≤ _ * _
    rw [← div_le_iff₀ hs]
    have h0 : 0 ≤ ⌈(maxCoord cloud d - minCoord cloud d) / coverSide maxDiv dim cloud⌉ :=
      Int.ceil_nonneg hw
    have : (((⌈(maxCoord cloud d - minCoord cloud d) / coverSide maxDiv dim cloud⌉).toNat : Nat) : K) =
        ((⌈(maxCoord cloud d - minCoord cloud d) / coverSide maxDiv dim cloud⌉ : Int) : K) := by
      rw [← Int.cast_natCast, Int.toNat_of_nonneg h0]
    rw [this]
    exact Int.le_ceil _
  · intro n hn
    have hn' : maxCoord cloud d - minCoord cloud d ≤ n * coverSide maxDiv dim cloud := hn
    rw [← div_le_iff₀ hs] at hn'
    rw [Int.toNat_le, Int.ceil_le]
    exact_mod_cast hn'

theorem inHypercube_iff {side overlap : K} {dim : Nat} {cloud : List (List K)} {pos : List Nat}
    {pt : List K} :
    inHypercube side overlap dim cloud pos pt = true ↔
      InCube dim (minCoord cloud) side overlap pos pt := by
  unfold inHypercube InCube
  rw [List.all_eq_true]
  have e : ∀ d, (minCoord cloud d + side * (pos.getD d 0 : K) - ((overlap / 2 + side / 2) - side / 2)) =
      minCoord cloud d + (pos.getD d 0 : K) * side - overlap / 2 := by intro d; ring
  have e' : ∀ d, (minCoord cloud d + side * (pos.getD d 0 : K) + ((overlap / 2 + side / 2) + side / 2)) =
      minCoord cloud d + ((pos.getD d 0 : K) + 1) * side + overlap / 2 := by intro d; ring
  constructor
  · intro h d hd
    have := h d (List.mem_range.2 hd)
    rw [e, e'] at this
    simpa using this
  · intro h d hd
    have := h d (List.mem_range.1 hd)
    rw [e, e']
    simpa using this

theorem InCube.congr {dim : Nat} {lo lo' : Nat → K} {side overlap : K} {pos : List Nat} {pt : List K}
    (h : ∀ d < dim, lo d = lo' d) :
    InCube dim lo side overlap pos pt ↔ InCube dim lo' side overlap pos pt := by
  unfold InCube
  refine forall_congr' fun d => forall_congr' fun hd => ?_
  rw [h d hd]

/-- A number between `0` and `n` times the side lies in one of `n` intervals. -/
theorem exists_cell {side : K} (n : Nat) (hn : 0 < n) {t : K} (h0 : 0 ≤ t) (h1 : t ≤ n * side) :
    ∃ k < n, (k : K) * side ≤ t ∧ t ≤ ((k : K) + 1) * side := by
  induction n with
  | zero => omega
  | succ n ih =>
    by_cases h : 0 < n ∧ t ≤ n * side
    · obtain ⟨k, hk, h2⟩ := ih h.1 h.2
      exact ⟨k, by omega, h2⟩
    · refine ⟨n, by omega, ?_, by push_cast at h1; exact h1⟩
      by_cases hn0 : 0 < n
      · exact le_of_lt (not_le.1 fun hc => h ⟨hn0, hc⟩)
      · have : n = 0 := by omega
        subst this
        simpa using h0

omit [FloorRing K] in
/-- The least number of cubes is positive iff the box has positive width. -/
theorem isDiv_pos_iff {dim : Nat} {lo hi : Nat → K} {side : K} {div : List Nat}
    (h : IsDiv dim lo hi side div) {d : Nat} (hd : d < dim) (hs : 0 < side) :
    0 < div.getD d 0 ↔ lo d < hi d := by
  constructor
  · intro h1
    by_contra hc
    have h2 := (h.2 d hd).2 (show (0 : Nat) ∈ {n : Nat | hi d - lo d ≤ n * side} by
      simp only [Set.mem_ofPred_eq, Nat.cast_zero, zero_mul]; linarith)
    omega
  · intro h1
    have h2 := (h.2 d hd).1
    simp only [Set.mem_ofPred_eq] at h2
    by_contra hc
    have h3 : div.getD d 0 = 0 := by omega
    rw [h3] at h2
    simp at h2
    linarith

end

end Permaviss
