import Verif.Spec.Process
import Verif.Model.Shared
import Verif.Lemmas.Pages
import Verif.Lemmas.Machine
import Mathlib.Data.List.Pairwise

/-!
# Reading the right prime
-/

namespace Permaviss

section

variable {α : Type} [LinearOrder α]

theorem extLoopAt_eq (rnd : α → α) (E : SSEnv α) (S : SSt α) (deaths : List α) {q : ℕ → ℕ} {N : ℕ}
    (hq : ∀ i < N, q i = E.p) (m : ℕ) : ∀ idx n deg reps, n = N - idx →
    extLoopAt rnd E S deaths q m idx n deg reps = extLoop rnd E S deaths m idx n deg reps := by
  induction m with
  | zero => intros; rfl
  | succ m ih =>
    intro idx n deg reps hn
    unfold extLoopAt extLoop
    have ih' := fun reps => ih (idx + 1) (n - 1) (deg + 1) reps (by omega)
    by_cases h0 : 0 < n
    · simp only [if_pos h0, hq idx (by omega), ih']
    · simp only [if_neg h0, ih']

theorem extensionAt_eq (rnd : α → α) (E : SSEnv α) (S : SSt α) {q : ℕ → ℕ} {n : ℕ} (hq : ∀ i < n, q i = E.p)
    (deg : ℕ) : extensionAt rnd E S q n deg = extension rnd E S n deg := by
  unfold extensionAt extension
  simp only [extLoopAt_eq rnd E S _ hq _ 0 n _ _ (Nat.sub_zero n).symm]

variable [Zero α]

theorem persistentListAt_eq (rnd : α → α) (E : SSEnv α) (S : SSt α) {q : ℕ → ℕ → ℕ → ℕ}
    (hq : ∀ d n i, IsRead E.rows d n i → q d n i = E.p) (cols : ℕ) :
    persistentListAt rnd E S q cols = persistentList rnd E S cols := by
  have h : ∀ deg, deg < E.rows → ∀ dims n, n ≤ deg →
      extColumnsAt rnd E S (q deg) deg dims n = extColumns rnd E S deg dims n := by
    intro deg hd dims n hn
    unfold extColumnsAt extColumns
    split
    · rfl
    · rw [extensionAt_eq rnd E S (q := q deg n) fun i hi => hq deg n i ⟨hd, hn, hi⟩]
      refine bind_congr fun exts => ?_
      rfl
  have h' : ∀ deg, deg < E.rows → diagonalAt rnd E S q cols deg = diagonal rnd E S cols deg := by
    intro deg hd
    unfold diagonalAt diagonal
    have : ∀ dims, (List.range (min (deg + 1) cols)).mapM (extColumnsAt rnd E S (q deg) deg dims) =
        (List.range (min (deg + 1) cols)).mapM (extColumns rnd E S deg dims) := fun dims =>
      mapM_congr_mem fun n hn => h deg hd dims n (by have := List.mem_range.1 hn; omega)
    simp only [this]
  unfold persistentListAt persistentList
  rw [mapM_congr_mem (g := diagonal rnd E S cols)]
  intro deg hdeg
  obtain ⟨i, hi, rfl⟩ := List.mem_map.1 hdeg
  exact h' _ (by have := List.mem_range.1 hi; omega)

end

theorem bind_congr_ok {X Y : Type} {x : Except PyErr X} {f g : X → Except PyErr Y}
    (h : ∀ a, x = .ok a → f a = g a) : (x >>= f) = (x >>= g) := by
  cases x with
  | error e => rfl
  | ok a => exact h a rfl

theorem createEnv_p {K : Type} [Field K] [LinearOrder K] [FloorRing K] {pdist : List (List K) → List (List K)}
    {argsort : List K → List ℕ} {rnd : K → K} {maxR : K} {maxDim maxDiv : ℕ} {overlap : K} {dim : ℕ}
    {cloud : List (List K)} {p : ℕ} {E : SSEnv K}
    (h : createEnv pdist argsort rnd maxR maxDim maxDiv overlap dim cloud p = .ok E) :
    E.p = p ∧ E.rows = maxDim := by
  unfold createEnv at h
  rw [bind_ok] at h
  obtain ⟨cover, -, h⟩ := h
  unfold envOf at h
  rw [bind_ok] at h
  obtain ⟨D, -, h⟩ := h
  simp only [] at h
  rw [bind_ok] at h
  obtain ⟨cols, -, h⟩ := h
  cases h
  exact ⟨rfl, rfl⟩

namespace Constructions

/-- The last of the earlier constructions. -/
theorem attrAt_mem {h : Constructions} {t c p : ℕ} (hs : h.Pairwise fun x y => x.1 < y.1) (hc : (c, p) ∈ h)
    (hct : c < t) : ∃ x ∈ h, c ≤ x.1 ∧ x.1 < t ∧ h.attrAt t = x.2 := by
  unfold attrAt
  set l := h.filter fun x => decide (x.1 < t) with hl
  have hcl : (c, p) ∈ l := List.mem_filter.2 ⟨hc, by simpa using hct⟩
  have hne : l ≠ [] := List.ne_nil_of_mem hcl
  rw [List.getLast?_eq_some_getLast hne]
  obtain ⟨hm1, hm2⟩ := List.mem_filter.1 (List.getLast_mem hne)
  refine ⟨l.getLast hne, hm1, ?_, by simpa using hm2, rfl⟩
  have hsl : l.Pairwise fun x y => x.1 < y.1 := hs.filter _
  have hd := List.dropLast_append_getLast hne
  rw [← hd] at hcl hsl
  rcases List.mem_append.1 hcl with h1 | h1
  · exact le_of_lt ((List.pairwise_append.1 hsl).2.2 _ h1 _ (by simp))
  · rw [List.mem_singleton] at h1
    rw [← h1]

/-- The prime read after a construction, if no construction for another prime comes in between. -/
theorem attrAt_eq {h : Constructions} {t c p : ℕ} (hs : h.Pairwise fun x y => x.1 < y.1) (hc : (c, p) ∈ h)
    (hct : c < t) (iso : ∀ x ∈ h, c < x.1 → x.1 < t → x.2 = p) : h.attrAt t = p := by
  obtain ⟨x, hx, h1, h2, h3⟩ := attrAt_mem hs hc hct
  rw [h3]
  rcases Nat.lt_or_ge c x.1 with hlt | hge
  · exact iso x hx hlt h2
  · have hxc : x.1 = c := le_antisymm hge h1
    by_contra hne
    have hd : x ≠ (c, p) := fun e => hne (by rw [e])
    have hs' := hs.imp (S := fun x y : ℕ × ℕ => x.1 ≠ y.1) fun hxy => Nat.ne_of_lt hxy
    have : Std.Symm fun x y : ℕ × ℕ => x.1 ≠ y.1 := ⟨fun _ _ h => h.symm⟩
    exact hs'.forall hx hc hd hxc

end Constructions

end Permaviss
