import Mathlib.LinearAlgebra.Span.Basic

/-!
# Spans of prefixes of a family of vectors
-/

namespace Permaviss

variable {K V : Type*} [Field K] [AddCommGroup V] [Module K V]

/-- The span of the vectors `x j` with `j < m` and `S j`. -/
def spn (K : Type*) {V : Type*} [Field K] [AddCommGroup V] [Module K V] (x : ℕ → V) (S : ℕ → Prop)
    (m : ℕ) : Submodule K V := Submodule.span K (x '' {j | j < m ∧ S j})

theorem mem_spn {x : ℕ → V} {S : ℕ → Prop} {m j : ℕ} (h : j < m) (hS : S j) : x j ∈ spn K x S m :=
  Submodule.subset_span ⟨j, ⟨h, hS⟩, rfl⟩

theorem spn_le {x : ℕ → V} {S : ℕ → Prop} {m : ℕ} {W : Submodule K V}
    (h : ∀ j, j < m → S j → x j ∈ W) : spn K x S m ≤ W := by
  refine Submodule.span_le.2 ?_
  rintro _ ⟨j, ⟨h1, h2⟩, rfl⟩
  exact h j h1 h2

theorem spn_mono {x : ℕ → V} {S S' : ℕ → Prop} {m m' : ℕ} (hm : m ≤ m')
    (h : ∀ j, j < m → S j → S' j) : spn K x S m ≤ spn K x S' m' :=
  spn_le fun j h1 h2 => mem_spn (lt_of_lt_of_le h1 hm) (h j h1 h2)

theorem spn_congr {x x' : ℕ → V} {S S' : ℕ → Prop} {m : ℕ} (hS : ∀ j, j < m → (S j ↔ S' j))
    (hx : ∀ j, j < m → S j → x j = x' j) : spn K x S m = spn K x' S' m := by
  apply le_antisymm
  · refine spn_le fun j h1 h2 => ?_
    rw [hx j h1 h2]; exact mem_spn h1 ((hS j h1).1 h2)
  · refine spn_le fun j h1 h2 => ?_
    rw [← hx j h1 ((hS j h1).2 h2)]; exact mem_spn h1 ((hS j h1).2 h2)

theorem spn_map {V' : Type*} [AddCommGroup V'] [Module K V'] (f : V →ₗ[K] V') (x : ℕ → V)
    (S : ℕ → Prop) (m : ℕ) : (spn K x S m).map f = spn K (fun j => f (x j)) S m := by
  unfold spn
  rw [Submodule.map_span, ← Set.image_comp]; rfl

/-- Adding a vector to the family. -/
theorem spn_insert {x : ℕ → V} {S : ℕ → Prop} {m c : ℕ} (hc : c < m) :
    spn K x (fun j => S j ∨ j = c) m = spn K x S m ⊔ Submodule.span K {x c} := by
  apply le_antisymm
  · refine spn_le fun j h1 h2 => ?_
    rcases h2 with h2 | rfl
    · exact Submodule.mem_sup_left (mem_spn h1 h2)
    · exact Submodule.mem_sup_right (Submodule.mem_span_singleton_self _)
  · refine sup_le (spn_mono le_rfl fun _ _ => Or.inl) ?_
    rw [Submodule.span_singleton_le_iff_mem]
    exact mem_spn hc (Or.inr rfl)

/-- A vector in the span of the earlier ones can be left out. -/
theorem spn_remove {x : ℕ → V} {S : ℕ → Prop} {m c : ℕ} (h : x c ∈ spn K x S c) :
    spn K x (fun j => S j ∧ j ≠ c) m = spn K x S m := by
  apply le_antisymm (spn_mono le_rfl fun _ _ h => h.1)
  refine spn_le fun j h1 h2 => ?_
  by_cases hj : j = c
  · subst hj
    exact spn_mono h1.le (fun i hi hs => ⟨hs, by omega⟩) h
  · exact mem_spn h1 ⟨h2, hj⟩

/-- Changing a vector by a combination of earlier ones. -/
theorem spn_op {x x' : ℕ → V} {S : ℕ → Prop} {m c : ℕ} (hx : ∀ j, j ≠ c → x' j = x j)
    (h : x' c - x c ∈ spn K x S c) : spn K x' S m = spn K x S m := by
  have hlt : ∀ m, m ≤ c → spn K x' S m = spn K x S m := fun m hm =>
    spn_congr (fun _ _ => Iff.rfl) fun j h1 _ => hx j (by omega)
  apply le_antisymm
  · refine spn_le fun j h1 h2 => ?_
    by_cases hj : j = c
    · subst hj
      have := Submodule.add_mem _ (spn_mono (K := K) (x := x) h1.le (fun _ _ h => h) h)
        (mem_spn (K := K) (x := x) h1 h2)
      rwa [sub_add_cancel] at this
    · rw [hx j hj]; exact mem_spn h1 h2
  · refine spn_le fun j h1 h2 => ?_
    by_cases hj : j = c
    · subst hj
      rw [← hlt j le_rfl] at h
      have := Submodule.sub_mem _ (mem_spn (K := K) (x := x') h1 h2)
        (spn_mono (K := K) (x := x') h1.le (fun _ _ h => h) h)
      rwa [sub_sub_cancel] at this
    · rw [← hx j hj]; exact mem_spn h1 h2

theorem spn_ge {x : ℕ → V} {S : ℕ → Prop} {m c : ℕ} (hc : m ≤ c) :
    spn K x (fun j => S j ∨ j = c) m = spn K x S m :=
  spn_congr (fun j hj => ⟨fun h => h.resolve_right (by omega), Or.inl⟩) fun _ _ _ => rfl

/-- Adding the same vector on both sides. -/
theorem spn_insert_congr {x y : ℕ → V} {S B : ℕ → Prop} {c : ℕ}
    (h : ∀ m, spn K x S m = spn K y B m) (hxy : x c = y c) (m : ℕ) :
    spn K x (fun j => S j ∨ j = c) m = spn K y (fun j => B j ∨ j = c) m := by
  rcases lt_or_ge c m with hc | hc
  · rw [spn_insert hc, spn_insert hc, h, hxy]
  · rw [spn_ge hc, spn_ge hc, h]

end Permaviss
