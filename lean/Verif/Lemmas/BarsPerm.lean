import Verif.Spec.Quotient
import Mathlib.Data.List.Perm.Basic
import Mathlib.Data.Finset.Max
import Mathlib.Algebra.Module.Submodule.Map
import Mathlib.LinearAlgebra.Isomorphisms
import Mathlib.LinearAlgebra.FiniteDimensional.Defs

/-!
# A barcode is determined by its ranks
-/

namespace Permaviss

variable {α : Type} [LinearOrder α]

theorem barsThrough_pos {bars : List (α × α)} {s t : α} :
    0 < barsThrough bars s t ↔ ∃ b ∈ bars, b.1 ≤ s ∧ t < b.2 := by
  unfold barsThrough
  rw [List.countP_pos_iff]
  simp

theorem barsThrough_erase {bars : List (α × α)} {b : α × α} (hb : b ∈ bars) (s t : α) :
    barsThrough bars s t = barsThrough [b] s t + barsThrough (bars.erase b) s t := by
  unfold barsThrough
  rw [(List.perm_cons_erase hb).countP_eq, ← List.countP_append]
  rfl

/-- A bar of one barcode lies inside a bar of the other one. -/
theorem exists_bar_above {A B : List (α × α)} (hA : ∀ b ∈ A, b.1 < b.2)
    (h : ∀ s t, s ≤ t → barsThrough A s t = barsThrough B s t) {a : α × α} (ha : a ∈ A) :
    ∃ b ∈ B, b.1 ≤ a.1 ∧ a.2 ≤ b.2 := by
  -- a radius below the end of `a` and not below the ends of the bars of `B` that are smaller
  have key : ∃ t, a.1 ≤ t ∧ t < a.2 ∧ ∀ b ∈ B, b.2 < a.2 → b.2 ≤ t := by
    have haa := hA a ha
    clear h
    induction B with
    | nil => exact ⟨a.1, le_rfl, haa, by simp⟩
    | cons c B ih =>
      obtain ⟨t, h1, h2, h3⟩ := ih
      by_cases hc : c.2 < a.2
      · refine ⟨max t c.2, h1.trans (le_max_left _ _), max_lt h2 hc, ?_⟩
        intro b hb hlt
        rcases List.mem_cons.1 hb with rfl | hb
        · exact le_max_right _ _
        · exact (h3 b hb hlt).trans (le_max_left _ _)
      · refine ⟨t, h1, h2, ?_⟩
        intro b hb hlt
        rcases List.mem_cons.1 hb with rfl | hb
        · exact absurd hlt hc
        · exact h3 b hb hlt
  obtain ⟨t, h1, h2, h3⟩ := key
  have : 0 < barsThrough A a.1 t := barsThrough_pos.2 ⟨a, ha, le_rfl, h2⟩
  rw [h _ _ h1, barsThrough_pos] at this
  obtain ⟨b, hb, b1, b2⟩ := this
  refine ⟨b, hb, b1, ?_⟩
  by_contra hc
  exact absurd (h3 b hb (not_le.1 hc)) (not_le.2 b2)

/-- A bar that is contained in no other one. -/
theorem exists_maximal_bar {A : List (α × α)} (hne : A ≠ []) :
    ∃ a ∈ A, ∀ b ∈ A, b.1 ≤ a.1 → a.2 ≤ b.2 → b = a := by
  induction A with
  | nil => exact absurd rfl hne
  | cons c A ih =>
    by_cases hA : A = []
    · subst hA
      refine ⟨c, by simp, fun b hb _ _ => ?_⟩
      simpa using hb
    obtain ⟨a, ha, hmax⟩ := ih hA
    by_cases hc : c.1 ≤ a.1 ∧ a.2 ≤ c.2
    · refine ⟨c, by simp, ?_⟩
      intro b hb h1 h2
      rcases List.mem_cons.1 hb with rfl | hb
      · rfl
      · have := hmax b hb (h1.trans hc.1) (hc.2.trans h2)
        subst this
        exact Prod.ext (le_antisymm h1 hc.1) (le_antisymm hc.2 h2)
    · refine ⟨a, by simp [ha], ?_⟩
      intro b hb h1 h2
      rcases List.mem_cons.1 hb with rfl | hb
      · exact absurd ⟨h1, h2⟩ hc
      · exact hmax b hb h1 h2

/-- Two barcodes with the same ranks are equal up to the order of the bars. -/
theorem perm_of_barsThrough {A B : List (α × α)} (hA : ∀ b ∈ A, b.1 < b.2) (hB : ∀ b ∈ B, b.1 < b.2)
    (h : ∀ s t, s ≤ t → barsThrough A s t = barsThrough B s t) : A.Perm B := by
  induction hn : A.length generalizing A B with
  | zero =>
    obtain rfl := List.length_eq_zero_iff.1 hn
    cases B with
    | nil => exact List.Perm.refl _
    | cons b B =>
      obtain ⟨a, ha, -⟩ := exists_bar_above hB (fun s t hst => (h s t hst).symm) (a := b) (by simp)
      simp at ha
  | succ n ih =>
    have hne : A ≠ [] := by rintro rfl; simp at hn
    obtain ⟨a, ha, hmax⟩ := exists_maximal_bar hne
    obtain ⟨b, hb, b1, b2⟩ := exists_bar_above hA h ha
    obtain ⟨c, hc, c1, c2⟩ := exists_bar_above hB (fun s t hst => (h s t hst).symm) hb
    have := hmax c hc (c1.trans b1) (b2.trans c2)
    subst this
    have : b = c := Prod.ext (le_antisymm b1 c1) (le_antisymm c2 b2)
    subst this
    have hE : (A.erase b).Perm (B.erase b) := by
      refine ih (fun x hx => hA x (List.mem_of_mem_erase hx)) (fun x hx => hB x (List.mem_of_mem_erase hx))
        ?_ (by rw [List.length_erase_of_mem ha]; omega)
      intro s t hst
      have := h s t hst
      rw [barsThrough_erase ha, barsThrough_erase hb] at this
      omega
    exact (List.perm_cons_erase ha).trans ((hE.cons b).trans (List.perm_cons_erase hb).symm)

theorem barsThrough_perm {A B : List (α × α)} (h : A.Perm B) (s t : α) :
    barsThrough A s t = barsThrough B s t := h.countP_eq _

/-! ## Dimensions of images -/

/-- Two maps with the same kernel on a subspace have images of the same dimension. -/
theorem finrank_map_eq {K V W W' : Type} [Field K] [AddCommGroup V] [Module K V] [AddCommGroup W]
    [Module K W] [AddCommGroup W'] [Module K W'] (M : Submodule K V) (f : V →ₗ[K] W) (g : V →ₗ[K] W')
    (h : ∀ x ∈ M, f x = 0 ↔ g x = 0) : Module.finrank K (M.map f) = Module.finrank K (M.map g) := by
  have e : LinearMap.ker (f ∘ₗ M.subtype) = LinearMap.ker (g ∘ₗ M.subtype) := by
    ext x
    change f x.1 = 0 ↔ g x.1 = 0
    exact h x.1 x.2
  have r : ∀ {U : Type} [AddCommGroup U] [Module K U] (k : V →ₗ[K] U),
      Module.finrank K (M.map k) = Module.finrank K (↥M ⧸ LinearMap.ker (k ∘ₗ M.subtype)) := by
    intro U _ _ k
    rw [(LinearMap.quotKerEquivRange (k ∘ₗ M.subtype)).finrank_eq, LinearMap.range_comp,
      Submodule.range_subtype]
  rw [r f, r g, e]

end Permaviss
