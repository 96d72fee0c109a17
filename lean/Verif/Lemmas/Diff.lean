import Verif.Lemmas.Flag
import Verif.Lemmas.Vec
import Mathlib.Algebra.BigOperators.Ring.Finset
import Mathlib.Algebra.BigOperators.Group.Finset.Sigma
import Mathlib.Tactic.LinearCombination

namespace Permaviss

open Finset

/-! ### Faces of increasing lists -/

theorem eq_eraseIdx_of_sublist {c s : List Nat} (h : c.Sublist s) (hl : s.length = c.length + 1) :
    ∃ k, k < s.length ∧ c = s.eraseIdx k := by
  induction h with
  | slnil => simp at hl
  | @cons l₁ l₂ a h ih =>
    refine ⟨0, by simp, ?_⟩
    have : l₁ = l₂ := h.eq_of_length (by simp at hl; omega)
    simp [this]
  | @cons_cons l₁ l₂ a h ih =>
    obtain ⟨k, hk, e⟩ := ih (by simpa using hl)
    exact ⟨k + 1, by simpa using hk, by simp [e]⟩

theorem sublist_of_subset_sorted {c s : List Nat} (hc : c.Pairwise (· < ·)) (hs : s.Pairwise (· < ·))
    (h : c ⊆ s) : c.Sublist s := by
  have hcn : c.Nodup := hc.imp fun h => ne_of_lt h
  exact List.sublist_of_subperm_of_pairwise (r := (· < ·)) (List.subperm_of_subset hcn h) hc hs

theorem take_drop_split (s : List Nat) (k : Nat) (hk : k < s.length) :
    ∃ l₁ a l₂, s = l₁ ++ a :: l₂ ∧ s.eraseIdx k = l₁ ++ l₂ ∧ l₁.length = k ∧ s.getD k 0 = a := by
  refine ⟨s.take k, s[k], s.drop (k + 1), ?_, ?_, ?_, ?_⟩
  · rw [List.getElem_cons_drop, List.take_append_drop]
  · exact List.eraseIdx_eq_take_drop_succ s k
  · simp; omega
  · rw [List_getD_eq_getElem]

theorem npIntersect1d_length {c s : List Nat} (hc : c.Nodup) :
    (npIntersect1d c s).length = (c.filter fun x => decide (x ∈ s)).length := by
  unfold npIntersect1d npUnique
  rw [List.length_insertionSort, (hc.filter _).dedup]

/-- The test of differentials.py:46 holds exactly for faces. -/
theorem intersect_eq_iff {c s : List Nat} {d : Nat} (hc : c.Pairwise (· < ·))
    (hs : s.Pairwise (· < ·)) (hcl : c.length = d) (hsl : s.length = d + 1) :
    (npIntersect1d c s).length = d ↔ ∃ k, k < s.length ∧ c = s.eraseIdx k := by
  have hcn : c.Nodup := hc.imp fun h => ne_of_lt h
  rw [npIntersect1d_length hcn]
  constructor
  · intro h
    have h' : (c.filter fun x => decide (x ∈ s)).length = c.length := by rw [h, hcl]
    rw [List.length_filter_eq_length_iff] at h'
    have hsub : c ⊆ s := fun x hx => by simpa using h' x hx
    exact eq_eraseIdx_of_sublist (sublist_of_subset_sorted hc hs hsub) (by omega)
  · rintro ⟨k, -, rfl⟩
    rw [← hcl, List.length_filter_eq_length_iff]
    intro x hx
    exact decide_eq_true ((List.eraseIdx_sublist s k).subset hx)

/-- The missing vertex and its position, differentials.py:47-49. -/
theorem missing_vertex {s : List Nat} (hs : s.Pairwise (· < ·)) {k : Nat} (hk : k < s.length) :
    npSearchsorted s ((npSetdiff1d s (s.eraseIdx k)).getD 0 0) = k := by
  obtain ⟨l₁, a, l₂, e1, e2, e3, -⟩ := take_drop_split s k hk
  rw [e2]
  subst e1
  rw [List.pairwise_append, List.pairwise_cons] at hs
  obtain ⟨h1, ⟨h2, h3⟩, h4⟩ := hs
  have hd : npSetdiff1d (l₁ ++ a :: l₂) (l₁ ++ l₂) = [a] := by
    have : (l₁ ++ a :: l₂).filter (fun x => decide (x ∉ l₁ ++ l₂)) = [a] := by
      rw [List.filter_append, List.filter_cons]
      have q1 : l₁.filter (fun x => decide (x ∉ l₁ ++ l₂)) = [] := by
        rw [List.filter_eq_nil_iff]; intro x hx; simp [hx]
      have q2 : l₂.filter (fun x => decide (x ∉ l₁ ++ l₂)) = [] := by
        rw [List.filter_eq_nil_iff]; intro x hx; simp [hx]
      have q3 : a ∉ l₁ ++ l₂ := by
        intro h
        rcases List.mem_append.1 h with h | h
        · exact lt_irrefl _ (h4 a h a (by simp))
        · exact lt_irrefl _ (h2 a h)
      rw [q1, q2, if_pos (decide_eq_true q3)]; rfl
    unfold npSetdiff1d
    rw [this]
    simp [npUnique]
  rw [hd]
  unfold npSearchsorted
  rw [List.filter_append, List.filter_cons]
  have q1 : l₁.filter (fun x => decide (x < [a].getD 0 0)) = l₁ := by
    rw [List.filter_eq_self]; intro x hx
    exact decide_eq_true (h4 x hx a (by simp))
  have q2 : l₂.filter (fun x => decide (x < [a].getD 0 0)) = [] := by
    rw [List.filter_eq_nil_iff]; intro x hx
    have := h2 x hx
    simp; omega
  rw [q1, q2, if_neg (by simp)]
  simpa using e3

/-- Entry of the differential at a face. -/
theorem diffEntry_face {p d : Nat} {s : List Nat} (hs : s.Pairwise (· < ·))
    (hsl : s.length = d + 1) {k : Nat} (hk : k < s.length) :
    diffEntry p d (s.eraseIdx k) s = ((-1 : Int) ^ k).fmod p := by
  have hc : (s.eraseIdx k).Pairwise (· < ·) := hs.sublist (List.eraseIdx_sublist s k)
  have hcl : (s.eraseIdx k).length = d := by rw [List.length_eraseIdx_of_lt hk]; omega
  unfold diffEntry
  rw [if_pos ((intersect_eq_iff hc hs hcl hsl).2 ⟨k, hk, rfl⟩), missing_vertex hs hk]

/-- Entry of the differential away from the faces. -/
theorem diffEntry_not_face {p d : Nat} {c s : List Nat} (hc : c.Pairwise (· < ·))
    (hs : s.Pairwise (· < ·)) (hcl : c.length = d) (hsl : s.length = d + 1)
    (h : ∀ k, k < s.length → c ≠ s.eraseIdx k) : diffEntry p d c s = 0 := by
  unfold diffEntry
  rw [if_neg]
  rw [intersect_eq_iff hc hs hcl hsl]
  rintro ⟨k, hk, e⟩
  exact h k hk e

theorem eraseIdx_inj {s : List Nat} (hs : s.Pairwise (· < ·)) {a b : Nat} (ha : a < s.length)
    (hb : b < s.length) (h : s.eraseIdx a = s.eraseIdx b) : a = b := by
  have h1 := missing_vertex hs ha
  have h2 := missing_vertex hs hb
  rw [h] at h1
  exact h1.symm.trans h2

/-- Erasing two positions in either order. -/
theorem eraseIdx_eraseIdx_comm (s : List Nat) {a b : Nat} (h : b < a) :
    (s.eraseIdx a).eraseIdx b = (s.eraseIdx b).eraseIdx (a - 1) := by
  apply List.ext_getElem?
  intro i
  simp only [List.getElem?_eraseIdx]
  split_ifs <;> first | rfl | (congr 1; omega) | omega

/-- The alternating double sum over pairs of faces vanishes. -/
theorem alternating_double_sum {K : Type*} [CommRing K] (n : Nat) (F : Nat → Nat → K)
    (hF : ∀ a b, b < a → F a b = F b (a - 1)) :
    ∑ a ∈ range (n + 1), ∑ b ∈ range n, (-1 : K) ^ a * ((-1) ^ b * F a b) = 0 := by
  rw [← Finset.sum_product']
  refine Finset.sum_involution
    (fun x _ => if x.2 < x.1 then (x.2, x.1 - 1) else (x.2 + 1, x.1)) ?_ ?_ ?_ ?_
  · rintro ⟨a, b⟩ hab
    simp only
    split_ifs with h
    · rw [hF a b h]
      obtain ⟨a, rfl⟩ : ∃ c, a = c + 1 := ⟨a - 1, by omega⟩
      simp only [Nat.add_sub_cancel]
      ring
    · have := hF (b + 1) a (by omega)
      rw [Nat.add_sub_cancel] at this
      rw [this]; ring
  · rintro ⟨a, b⟩ hab _ h
    simp only at h
    split_ifs at h with h'
    · simp only [Prod.mk.injEq] at h; omega
    · simp only [Prod.mk.injEq] at h; omega
  · rintro ⟨a, b⟩ hab
    simp only [mem_product, mem_range] at hab
    dsimp only
    split_ifs with h
    · simp only [mem_product, mem_range]; omega
    · simp only [mem_product, mem_range]; omega
  · rintro ⟨a, b⟩ hab
    by_cases h : b < a
    · have h2 : ¬ (a - 1 < b) := by omega
      simp only [h, if_true, h2, if_false]
      simp only [Prod.mk.injEq, and_true]; omega
    · have h2 : a < b + 1 := by omega
      simp only [h, if_false, h2, if_true]
      simp

theorem sum_range_getD {β K : Type*} [AddCommMonoid K] (S : List β) (x : β) (g : β → K) :
    ∑ j ∈ range S.length, g (S.getD j x) = (S.map g).sum := by
  induction S with
  | nil => simp
  | cons a S ih =>
    rw [List.length_cons, Finset.sum_range_succ', List.map_cons, List.sum_cons, ← ih, add_comm]
    simp

/-- A sum over the positions of a duplicate free list that contains all faces of `s`, of a function
which vanishes away from the faces. -/
theorem sum_faces {K : Type*} [AddCommMonoid K] {S : List (List Nat)} (hS : S.Nodup) {s : List Nat}
    (hs : s.Pairwise (· < ·)) (hf : ∀ k, k < s.length → s.eraseIdx k ∈ S) (g : List Nat → K)
    (hg : ∀ c ∈ S, (∀ k, k < s.length → c ≠ s.eraseIdx k) → g c = 0) :
    ∑ j ∈ range S.length, g (S.getD j []) = ∑ k ∈ range s.length, g (s.eraseIdx k) := by
  have e1 : ∑ j ∈ range S.length, g (S.getD j []) = ∑ c ∈ S.toFinset, g c := by
    rw [List.sum_toFinset _ hS, sum_range_getD]
  rw [e1]
  have e2 : ∑ k ∈ range s.length, g (s.eraseIdx k) =
      ∑ c ∈ (range s.length).image (fun k => s.eraseIdx k), g c := by
    rw [Finset.sum_image]
    intro a ha b hb hab
    simp only [coe_range, Set.mem_Iio] at ha hb
    exact eraseIdx_inj hs ha hb hab
  rw [e2]
  refine (Finset.sum_subset ?_ ?_).symm
  · intro c hc
    obtain ⟨k, hk, rfl⟩ := Finset.mem_image.1 hc
    exact List.mem_toFinset.2 (hf k (mem_range.1 hk))
  · intro c hc hn
    refine hg c (List.mem_toFinset.1 hc) fun k hk e => hn ?_
    exact Finset.mem_image.2 ⟨k, mem_range.2 hk, e.symm⟩

/-! ### The list of differentials -/

theorem diffTail_length (p d : Nat) (P : List (List Nat)) (C : List (List (List Nat))) :
    (diffTail p d P C).length = C.length := by
  induction C generalizing d P with
  | nil => rfl
  | cons a C ih => simp [diffTail, ih]

theorem diffTail_get (p d : Nat) (P : List (List Nat)) (C : List (List (List Nat))) (i : Nat)
    (S T : List (List Nat)) (hS : (P :: C)[i]? = some S) (hT : (P :: C)[i + 1]? = some T) :
    (diffTail p d P C)[i]? = some (diffHigher p (d + i) S T) := by
  induction C generalizing d P i with
  | nil => simp at hT
  | cons a C ih =>
    cases i with
    | zero =>
      simp only [List.getElem?_cons_zero, Option.some.injEq, List.getElem?_cons_succ] at hS hT
      simp [diffTail, hS, hT]
    | succ i =>
      simp only [List.getElem?_cons_succ] at hS hT
      have := ih (d + 1) a i hS (by simpa using hT)
      rw [diffTail, List.getElem?_cons_succ, this]
      congr 2; omega

theorem diffHigher_get {p d : Nat} {S T : List (List Nat)} {i j : Nat} (hi : i < S.length)
    (hj : j < T.length) :
    (diffHigher p d S T).get i j = diffEntry p d (S.getD i []) (T.getD j []) := by
  simp [diffHigher, Mat.get, List.getD_eq_getElem?_getD, hi, hj]

theorem diffOne_get {p n : Nat} {E : List (List Nat)} {i j : Nat} (hi : i < n)
    (hj : j < E.length) :
    (diffOne p n E).get i j = if i = (E.getD j []).getD 1 0 then (p : Int) - 1 else
      if i = (E.getD j []).getD 0 0 then 1 else 0 := by
  simp [diffOne, diffEdge, Mat.get, List.getD_eq_getElem?_getD, hi, hj]

theorem getD_mem' {β : Type*} {l : List β} {x : β} {i : Nat} (hi : i < l.length) :
    l.getD i x ∈ l := by
  rw [List_getD_eq_getElem _ _ hi]; exact List.getElem_mem hi

theorem mem_of_getElem?' {β : Type*} {l : List β} {x : β} {i : Nat} (h : l[i]? = some x) :
    x ∈ l := List.mem_of_getElem? h

theorem diffOne_shape (p n : Nat) (E : List (List Nat)) (hp : 2 ≤ p) :
    (diffOne p n E).WellShaped ∧ (diffOne p n E).Reduced p := by
  refine ⟨?_, ?_⟩
  · intro c hc
    obtain ⟨e, -, rfl⟩ := List.mem_map.1 hc
    simp [diffEdge, diffOne]
  · intro c hc x hx
    obtain ⟨e, -, rfl⟩ := List.mem_map.1 hc
    obtain ⟨i, -, rfl⟩ := List.mem_map.1 hx
    have : (2 : Int) ≤ (p : Int) := by exact_mod_cast hp
    split_ifs <;> omega

theorem diffHigher_shape (p d : Nat) (S T : List (List Nat)) (hp : 2 ≤ p) :
    (diffHigher p d S T).WellShaped ∧ (diffHigher p d S T).Reduced p := by
  have h2 : (2 : Int) ≤ (p : Int) := by exact_mod_cast hp
  refine ⟨?_, ?_⟩
  · intro c hc
    obtain ⟨e, -, rfl⟩ := List.mem_map.1 hc
    simp [diffHigher]
  · intro c hc x hx
    obtain ⟨e, -, rfl⟩ := List.mem_map.1 hc
    obtain ⟨i, -, rfl⟩ := List.mem_map.1 hx
    unfold diffEntry
    split_ifs
    · exact ⟨Int.fmod_nonneg_of_pos _ (by omega), Int.fmod_lt_of_pos _ (by omega)⟩
    · omega

theorem cast_fmod (p : Nat) (x : Int) : ((x.fmod p : Int) : ZMod p) = (x : ZMod p) := by
  rw [ZMod.intCast_eq_intCast_iff, Int.fmod_eq_emod_of_nonneg _ (by omega)]
  exact Int.mod_modEq x p

/-- In a complex, the sum over all faces with the coefficients of `diffEntry` is the alternating sum
over the faces of `s`. -/
theorem sum_diffEntry {p d : Nat} {S : List (List Nat)} (hS : S.Nodup)
    (hSl : ∀ c ∈ S, c.length = d) (hSs : ∀ c ∈ S, c.Pairwise (· < ·)) {s : List Nat}
    (hs : s.Pairwise (· < ·)) (hsl : s.length = d + 1)
    (hf : ∀ k, k < s.length → s.eraseIdx k ∈ S) (g : List Nat → ZMod p) :
    ∑ j ∈ range S.length, g (S.getD j []) * ((diffEntry p d (S.getD j []) s : Int) : ZMod p) =
      ∑ k ∈ range (d + 1), (-1) ^ k * g (s.eraseIdx k) := by
  have := sum_faces hS hs hf (fun c => g c * ((diffEntry p d c s : Int) : ZMod p)) ?_
  · rw [this, hsl]
    refine Finset.sum_congr rfl fun k hk => ?_
    rw [diffEntry_face hs hsl (by rw [hsl]; exact mem_range.1 hk), cast_fmod]
    push_cast; ring
  · intro c hc h
    simp only [diffEntry_not_face (hSs c hc) hs (hSl c hc) hsl h, Int.cast_zero, mul_zero]

/-- The value of one row of a differential at an increasing list, as an alternating sum of values
at faces. -/
theorem diffEntry_eq_sum {p d : Nat} {c s : List Nat} (hc : c.Pairwise (· < ·))
    (hs : s.Pairwise (· < ·)) (hcl : c.length = d) (hsl : s.length = d + 1) :
    ((diffEntry p d c s : Int) : ZMod p) =
      ∑ k ∈ range (d + 1), (-1) ^ k * (if c = s.eraseIdx k then 1 else 0) := by
  by_cases h : ∃ k, k < s.length ∧ c = s.eraseIdx k
  · obtain ⟨k, hk, rfl⟩ := h
    rw [diffEntry_face hs hsl hk, cast_fmod]
    rw [Finset.sum_eq_single k]
    · simp
    · intro b hb hbk
      rw [if_neg, mul_zero]
      intro e
      exact hbk (eraseIdx_inj hs (by rw [hsl]; exact mem_range.1 hb) hk e.symm)
    · intro hn
      exact absurd (mem_range.2 (by omega)) hn
  · rw [diffEntry_not_face hc hs hcl hsl fun k hk e => h ⟨k, hk, e⟩]
    rw [Finset.sum_eq_zero, Int.cast_zero]
    intro k hk
    rw [if_neg, mul_zero]
    exact fun e => h ⟨k, by rw [hsl]; exact mem_range.1 hk, e⟩

end Permaviss
