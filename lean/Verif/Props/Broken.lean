import Verif.Lemmas.BrokenGlue
import Mathlib.Tactic.FinCases

/-!
# C62: extension problems
-/

namespace Permaviss

section

variable {α : Type} [LinearOrder α] [Zero α]

/-- C62, part: a persistence module is described by generators, one for each bar of a diagonal, and by
the matrix `ext` which says what each of them becomes when its bar ends.  If the generators in the values
of `ext` go to zero at their own death, then the basis which is stored has the barcode of the module: the
number of bars containing `s` and `t` is the rank of the map from `s` to `t`, for all `s ≤ t` below
`max_r`, and no bar goes beyond `max_r`.
Missing: matrices of extensions with more than two levels, for which it is false (`C62_violated`). -/
theorem C62_glue_partial {rnd : α → α} {p : ℕ} [Fact p.Prime] {R : α} {bars : List (α × α)} {ext : Mat}
    (h : ExtInput rnd p R bars ext) {V : Type} [AddCommGroup V] [Module (ZMod p) V]
    {Z B : α → Submodule (ZMod p) V} {w : ℕ → V}
    (hr : Resolves bars R (fun i j => ext.z p i j) Z B w) :
    ∃ Q, glueBars rnd p R bars ext = .ok Q ∧ (∀ b ∈ Q.barcode, b.1 < b.2) ∧
      (∀ s t, s ≤ t → t < R → barsThrough Q.barcode s t = rankThrough Z B s t) ∧
      ∀ s t, s ≤ t → R ≤ t → barsThrough Q.barcode s t = 0 := by
  obtain ⟨Q, h1, -, -, -, h2, h3⟩ := glueBars_out h
  refine ⟨Q, h1, h2, fun s t hst ht => ?_, fun s t hst ht => ?_⟩
  · rw [h3 s t hst, span_brkTr h hr hst ht]
  · rw [h3 s t hst, span_brkTr_end h hst ht]

/-- C62, part: for matrices of extensions with any number of levels, if the basis is returned at all then
its barcode is the one of the module: the number of bars containing `s` and `t` is the rank of the map from
`s` to `t`, for all `s ≤ t` below `max_r`, and no bar goes beyond `max_r`.
Missing: that it is returned, which is false (`C62_violated`). -/
theorem C62_levels_partial {rnd : α → α} {p : ℕ} [Fact p.Prime] {R : α} {bars : List (α × α)}
    {ext : Mat} (h : ExtLevels rnd p R bars ext) {V : Type} [AddCommGroup V] [Module (ZMod p) V]
    {Z B : α → Submodule (ZMod p) V} {w : ℕ → V}
    (hr : Resolves bars R (fun i j => ext.z p i j) Z B w) {Q : Basis α}
    (hQ : glueBars rnd p R bars ext = .ok Q) :
    (∀ b ∈ Q.barcode, b.1 < b.2) ∧
      (∀ s t, s ≤ t → t < R → barsThrough Q.barcode s t = rankThrough Z B s t) ∧
      ∀ s t, s ≤ t → R ≤ t → barsThrough Q.barcode s t = 0 := by
  obtain ⟨L, hL⟩ := exists_ends bars
  obtain ⟨-, -, -, h2, h3⟩ := glueBars_mul h hL hQ
  refine ⟨h2, fun s t hst ht => ?_, fun s t hst ht => ?_⟩
  · rw [h3 s t hst, span_mtr h hL hr hst ht]
  · rw [h3 s t hst, span_mtr_end h hL hst ht]

end

/-! ### Two bars: the first generator becomes the second one -/

section

attribute [local instance] Nat.fact_prime_two

/-- The cycles. -/
def twoZ (t : ℕ) : Submodule (ZMod 2) (ZMod 2 × ZMod 2) := if t < 1 then Submodule.span _ {(1, 0)} else ⊤

/-- The boundaries. -/
def twoB (t : ℕ) : Submodule (ZMod 2) (ZMod 2 × ZMod 2) :=
  if t < 3 then ⊥ else if t < 10 then Submodule.span _ {(1, 1)} else ⊤

/-- The generators. -/
def twoW (j : ℕ) : ZMod 2 × ZMod 2 := if j = 0 then (1, 0) else (0, 1)

theorem two_alive (j t : ℕ) : AliveBar [((0 : ℕ), (3 : ℕ)), (1, 10)] j t ↔
    (j = 0 ∧ t < 3) ∨ (j = 1 ∧ 1 ≤ t ∧ t < 10) := by
  unfold AliveBar
  match j with
  | 0 => simp
  | 1 => simp
  | j + 2 => simp

theorem two_resolves : Resolves [((0 : ℕ), (3 : ℕ)), (1, 10)] 20
    (fun i j => (⟨2, [[0, 1], [0, 0]]⟩ : Mat).z 2 i j) twoZ twoB twoW where
  monoZ := by
    intro s t hst
    unfold twoZ
    by_cases h1 : t < 1
    · rw [if_pos h1, if_pos (by omega)]
    · rw [if_neg h1]; exact le_top
  monoB := by
    intro s t hst
    unfold twoB
    by_cases h1 : s < 3
    · rw [if_pos h1]; exact bot_le
    · rw [if_neg h1, if_neg (by omega : ¬ t < 3)]
      by_cases h2 : t < 10
      · rw [if_pos h2, if_pos (by omega)]
      · rw [if_neg h2]; exact le_top
  born := by
    intro j b hb
    match j with
    | 0 =>
      simp at hb; subst hb
      exact Submodule.mem_span_singleton_self _
    | 1 => simp at hb; subst hb; exact Submodule.mem_top
    | j + 2 => simp at hb
  indep := by
    intro t ht c hc h0 j
    simp only [two_alive] at h0
    have hw : ∑ j ∈ Finset.range 2, c j • twoW j = (c 0, c 1) := by
      simp [Finset.sum_range_succ, twoW]
    have hc' : (c 0, c 1) ∈ twoB t := by rw [← hw]; exact hc
    unfold twoB at hc'
    have hj : 2 ≤ j → c j = 0 := fun h => h0 j (by omega)
    by_cases h1 : t < 3
    · rw [if_pos h1] at hc'
      have hc' := (Submodule.mem_bot _).1 hc'
      rw [Prod.mk_eq_zero] at hc'
      match j, hj with
      | 0, _ => exact hc'.1
      | 1, _ => exact hc'.2
      | j + 2, h => exact h (by omega)
    · have c0 : c 0 = 0 := h0 0 (by omega)
      rw [if_neg h1] at hc'
      by_cases h2 : t < 10
      · rw [if_pos h2] at hc'
        obtain ⟨a, ha⟩ := Submodule.mem_span_singleton.1 hc'
        rw [Prod.smul_mk, Prod.mk.injEq] at ha
        match j, hj with
        | 0, _ => exact c0
        | 1, _ => rw [← ha.2, ha.1, c0]
        | j + 2, h => exact h (by omega)
      · match j, hj with
        | 0, _ => exact c0
        | 1, _ => exact h0 1 (by omega)
        | j + 2, h => exact h (by omega)
  span := by
    intro t ht
    have hset : {x | ∃ j, AliveBar [((0 : ℕ), (3 : ℕ)), (1, 10)] j t ∧ x = twoW j} =
        {x | (t < 3 ∧ x = (1, 0)) ∨ (1 ≤ t ∧ t < 10 ∧ x = (0, 1))} := by
      ext x
      simp only [Set.mem_setOf_eq, two_alive]
      constructor
      · rintro ⟨j, ⟨rfl, h⟩ | ⟨rfl, h⟩, rfl⟩
        · exact Or.inl ⟨h, rfl⟩
        · exact Or.inr ⟨h.1, h.2, rfl⟩
      · rintro (⟨h, rfl⟩ | ⟨h, h', rfl⟩)
        · exact ⟨0, Or.inl ⟨rfl, h⟩, rfl⟩
        · exact ⟨1, Or.inr ⟨rfl, h, h'⟩, rfl⟩
    rw [hset]
    unfold twoZ twoB
    by_cases h0 : t < 1
    · rw [if_pos h0, if_pos (by omega), sup_bot_eq]
      congr 1
      ext x
      simp only [Set.mem_singleton_iff, Set.mem_setOf_eq]
      constructor
      · rintro rfl; exact Or.inl ⟨by omega, rfl⟩
      · rintro (⟨-, rfl⟩ | ⟨h, -⟩)
        · rfl
        · omega
    · rw [if_neg h0]
      symm
      rw [eq_top_iff]
      rintro ⟨x, y⟩ -
      by_cases h1 : t < 3
      · rw [if_pos h1, sup_bot_eq]
        have e : ((x, y) : ZMod 2 × ZMod 2) = x • (1, 0) + y • (0, 1) := by simp
        rw [e]
        exact Submodule.add_mem _
          (Submodule.smul_mem _ _ (Submodule.subset_span (Or.inl ⟨h1, rfl⟩)))
          (Submodule.smul_mem _ _ (Submodule.subset_span (Or.inr ⟨by omega, by omega, rfl⟩)))
      · rw [if_neg h1]
        by_cases h2 : t < 10
        · rw [if_pos h2]
          have e : ((x, y) : ZMod 2 × ZMod 2) = (y - x) • (0, 1) + x • (1, 1) := by simp
          rw [e]
          exact Submodule.add_mem _
            (Submodule.mem_sup_left (Submodule.smul_mem _ _
              (Submodule.subset_span (Or.inr ⟨by omega, h2, rfl⟩))))
            (Submodule.mem_sup_right (Submodule.smul_mem _ _ (Submodule.mem_span_singleton_self _)))
        · rw [if_neg h2]
          exact Submodule.mem_sup_right Submodule.mem_top
  dies := by
    intro j b hb hbR
    match j with
    | 0 =>
      simp at hb; subst hb
      have e : twoW 0 - ∑ i ∈ Finset.range 2, (⟨2, [[0, 1], [0, 0]]⟩ : Mat).z 2 i 0 • twoW i =
          (1, 1) := by
        simp [Finset.sum_range_succ, twoW, Mat.z, Mat.get]
      change twoW 0 - ∑ i ∈ Finset.range 2, _ ∈ twoB 3
      rw [e]
      exact Submodule.mem_span_singleton_self _
    | 1 => simp at hb; subst hb; exact Submodule.mem_top
    | j + 2 => simp at hb

theorem two_input : ExtInput (id : ℕ → ℕ) 2 20 [(0, 3), (1, 10)] ⟨2, [[0, 1], [0, 0]]⟩ where
  prime := Nat.prime_two
  ne := by simp
  wf := by decide
  rounding := fun _ _ _ _ h => h
  rows := rfl
  ncols := rfl
  len := by decide
  two := by
    have key : ∀ i j, (⟨2, [[0, 1], [0, 0]]⟩ : Mat).z 2 i j ≠ 0 → i = 1 ∧ j = 0 := by
      intro i j h
      match i, j with
      | 0, 0 => exact absurd rfl h
      | 1, 0 => exact ⟨rfl, rfl⟩
      | i + 2, 0 => exact absurd (by simp [Mat.z, Mat.get]) h
      | 0, 1 => exact absurd rfl h
      | 1, 1 => exact absurd rfl h
      | i + 2, 1 => exact absurd (by simp [Mat.z, Mat.get]) h
      | i, j + 2 => exact absurd (by simp [Mat.z, Mat.get]) h
    intro i j k h
    obtain ⟨rfl, rfl⟩ := key i j h
    by_contra hk
    exact absurd (key k 1 hk).2 (by omega)
  life := by
    intro i j bi bj hi hj h
    match i, j with
    | 0, 0 => exact absurd rfl h
    | 1, 0 => simp at hi hj; subst hi hj; decide
    | i + 2, _ => simp at hi
    | 0, 1 => exact absurd rfl h
    | 1, 1 => exact absurd rfl h
    | _, j + 2 => simp at hj

/-- The bars are `[0, 3)` and `[1, 10)`, and the class of the first one lives on as the second one: the
result has the bars `[0, 10)` and `[1, 3)`. -/
example : ∃ Q, glueBars (id : ℕ → ℕ) 2 20 [(0, 3), (1, 10)] ⟨2, [[0, 1], [0, 0]]⟩ = .ok Q ∧
    Q.barcode = [(0, 10), (1, 3)] ∧
    ∀ s t, s ≤ t → t < 20 → barsThrough Q.barcode s t = rankThrough twoZ twoB s t := by
  obtain ⟨Q, h1, -, h2, -⟩ := C62_glue_partial two_input two_resolves
  refine ⟨Q, h1, ?_, h2⟩
  have : (glueBars (id : ℕ → ℕ) 2 20 [(0, 3), (1, 10)] ⟨2, [[0, 1], [0, 0]]⟩).toOption.map
      (fun Q => Q.barcode) = some [(0, 10), (1, 3)] := by decide +kernel
  rw [h1] at this
  simpa [Except.toOption] using this

end

/-! ### Three levels -/

section

attribute [local instance] Nat.fact_prime_two

theorem chain_input : ExtLevels (id : ℕ → ℕ) 2 20 [(0, 3), (1, 5), (2, 20)]
    ⟨3, [[0, 1, 0], [0, 0, 1], [0, 0, 0]]⟩ where
  prime := Nat.prime_two
  ne := by simp
  wf := by decide
  rounding := fun _ _ _ _ h => h
  rows := rfl
  ncols := rfl
  len := by decide
  life := by
    intro i j bi bj hi hj h
    match i, j with
    | 0, 0 => exact absurd rfl h
    | 1, 0 => simp at hi hj; subst hi hj; decide
    | 2, 0 => exact absurd rfl h
    | 0, 1 => exact absurd rfl h
    | 1, 1 => exact absurd rfl h
    | 2, 1 => simp at hi hj; subst hi hj; decide
    | 0, 2 => exact absurd rfl h
    | 1, 2 => exact absurd rfl h
    | 2, 2 => exact absurd rfl h
    | i + 3, _ => simp at hi
    | _, j + 3 => simp at hj

/-- The generator `0` becomes `1` at `3`, which becomes `2` at `5`: the bars `[0, 3)`, `[1, 5)`, `[2, 20)`
give `[0, 20)`, `[1, 3)` and `[2, 5)`. -/
example : ∃ Q, glueBars (id : ℕ → ℕ) 2 20 [(0, 3), (1, 5), (2, 20)]
      ⟨3, [[0, 1, 0], [0, 0, 1], [0, 0, 0]]⟩ = .ok Q ∧ Q.barcode = [(0, 20), (1, 3), (2, 5)] ∧
    ∃ (Z B : ℕ → Submodule (ZMod 2) (ℕ → ZMod 2)) (w : ℕ → ℕ → ZMod 2),
      Resolves [((0 : ℕ), (3 : ℕ)), (1, 5), (2, 20)] 20
        (fun i j => (⟨3, [[0, 1, 0], [0, 0, 1], [0, 0, 0]]⟩ : Mat).z 2 i j) Z B w ∧
      ∀ s t, s ≤ t → t < 20 → barsThrough Q.barcode s t = rankThrough Z B s t := by
  have h0 : (glueBars (id : ℕ → ℕ) 2 20 [(0, 3), (1, 5), (2, 20)]
      ⟨3, [[0, 1, 0], [0, 0, 1], [0, 0, 0]]⟩).toOption.map
      (fun Q => Q.barcode) = some [(0, 20), (1, 3), (2, 5)] := by decide +kernel
  cases hQ : glueBars (id : ℕ → ℕ) 2 20 [(0, 3), (1, 5), (2, 20)]
      ⟨3, [[0, 1, 0], [0, 0, 1], [0, 0, 0]]⟩ with
  | error e => rw [hQ] at h0; cases h0
  | ok Q =>
    rw [hQ] at h0
    refine ⟨Q, rfl, by simpa [Except.toOption] using h0, _, _, _, ext_realized chain_input, ?_⟩
    exact (C62_levels_partial chain_input (ext_realized chain_input) hQ).2.1

end

section

/-- The bars of the counterexample. -/
def threeBars : List (ℕ × ℕ) := [(0, 3), (1, 5), (1, 5), (2, 20), (2, 20)]

/-- Generator `0` becomes `w₂ + w₃` at `3`; at `5` generators `1` and `2` become `3 w₃ + w₄` and
`2 w₃ + w₄`. -/
def threeExt : Mat := ⟨5, [[0, 0, 1, 1, 0], [0, 0, 0, 3, 1], [0, 0, 0, 2, 1], [0, 0, 0, 0, 0],
  [0, 0, 0, 0, 0]]⟩

/-- The columns of the image when generator `2` is treated at `5`, for a value `(x, y)` of the
coordinates of its column at `w₃` and `w₄`. -/
def threeIm (x y : ℤ) : Mat := ⟨5, [[0, 0, 0, 3, 1], [0, 0, 0, 3, 1], [0, 0, 0, x, y], [0, 0, 0, 0, 0],
  [0, 0, 0, 0, 1]]⟩

theorem three_loop (fuel : ℕ) : ∀ T : Option Mat,
    pcrLoop 5 [3, 4] 2 [3, 4] fuel (threeIm 0 2) T = .error .outOfFuel ∧
    pcrLoop 5 [3, 4] 2 [3, 4] fuel (threeIm 3 3) T = .error .outOfFuel ∧
    pcrLoop 5 [3, 4] 2 [3, 4] fuel (threeIm 1 4) T = .error .outOfFuel ∧
    pcrLoop 5 [3, 4] 2 [3, 4] fuel (threeIm 4 0) T = .error .outOfFuel ∧
    pcrLoop 5 [3, 4] 2 [3, 4] fuel (threeIm 2 1) T = .error .outOfFuel := by
  induction fuel with
  | zero => intro T; exact ⟨rfl, rfl, rfl, rfl, rfl⟩
  | succ f ih =>
    intro T
    refine ⟨?_, ?_, ?_, ?_, ?_⟩
    · exact (ih _).2.1
    · exact (ih _).2.2.1
    · exact (ih _).2.2.2.1
    · exact (ih _).1
    · exact (ih _).1

/-- C62 fails for extensions with three levels: the reduction of the third column never ends, whatever
the number of steps it is given.  (In Python the recursion limit is reached.) -/
theorem C62_violated :
    glueBars (id : ℕ → ℕ) 5 20 threeBars threeExt = .error .outOfFuel ∧
    (∃ st, (ikLoop ⟨5, ⟨threeBars.map fun b => (b.1, 20), false, 5, none, ⟨1, []⟩, true, none, none⟩,
        ⟨threeBars, false, 5, none, ⟨1, []⟩, true, none, some threeExt⟩, ⟨5, identityCols 5⟩, 0⟩ [0, 1, 2, 3]
        (IKEnv.init ⟨5, ⟨threeBars.map fun b => (b.1, 20), false, 5, none, ⟨1, []⟩, true, none, none⟩,
        ⟨threeBars, false, 5, none, ⟨1, []⟩, true, none, some threeExt⟩, ⟨5, identityCols 5⟩, 0⟩)) =
          .ok st ∧ st.im.cols.take 3 = [[0, 0, 1, 1, 0], [0, 1, 0, 0, 0], [0, 0, 1, 0, 0]] ∧
        st.pivIm.take 3 = [3, 1, 2]) ∧
    ∀ fuel T, pcrLoop 5 [3, 4] 2 [3, 4] fuel (threeIm 2 1) T = .error .outOfFuel := by
  refine ⟨?_, ?_, fun fuel T => (three_loop fuel T).2.2.2.2⟩
  · have : (match glueBars (id : ℕ → ℕ) 5 20 threeBars threeExt with
      | .error e => some e
      | .ok _ => none) = some .outOfFuel := by decide +kernel
    cases h : glueBars (id : ℕ → ℕ) 5 20 threeBars threeExt with
    | error e => rw [h] at this; simpa using this
    | ok Q => rw [h] at this; cases this
  · refine ⟨_, rfl, ?_, ?_⟩ <;> decide +kernel

end

end Permaviss
