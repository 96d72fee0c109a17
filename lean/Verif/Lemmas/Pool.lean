import Verif.Model.Pool
import Verif.Lemmas.ExceptM
import Mathlib.Data.List.Basic
import Mathlib.Tactic.Linarith
import Mathlib.Tactic.Ring

namespace Permaviss

variable {γ β : Type}

theorem chunksOf_get {k : ℕ} (hk : 0 < k) : ∀ (fuel : ℕ) (xs : List γ) (i : ℕ), xs.length ≤ fuel →
    (chunksOf k fuel xs)[i]? = if i * k < xs.length then some ((xs.drop (i * k)).take k) else none := by
  intro fuel
  induction fuel with
  | zero =>
    intro xs i h
    have : xs = [] := List.eq_nil_of_length_eq_zero (by omega)
    subst this; simp [chunksOf]
  | succ fuel ih =>
    intro xs i h
    cases xs with
    | nil => simp [chunksOf]
    | cons x xs =>
      rw [chunksOf]
      cases i with
      | zero => simp
      | succ i =>
        rw [List.getElem?_cons_succ, ih _ _ (by simp at h ⊢; omega)]
        have e : (i + 1) * k = k + i * k := by ring
        simp only [List.length_drop, List.drop_drop, e]
        by_cases h' : i * k < (x :: xs).length - k
        · rw [if_pos h', if_pos (by omega)]
        · rw [if_neg h', if_neg (by omega)]

theorem MapState.set_value_get {k : ℕ} {s : MapState β} {i : ℕ} {vs : List β}
    (h : i * k + vs.length ≤ s.value.length) (j : ℕ) :
    (s.set k i (.ok vs)).value[j]? =
      if i * k ≤ j ∧ j < i * k + vs.length then (vs[j - i * k]?).map some else s.value[j]? := by
  simp only [MapState.set]
  generalize i * k = a at *
  have h1 : (s.value.take a).length = a := by simp; omega
  by_cases hj : j < a
  · rw [if_neg (by omega), List.append_assoc, List.getElem?_append_left (by omega),
      List.getElem?_take_of_lt hj]
  · by_cases hj2 : j < a + vs.length
    · rw [if_pos ⟨by omega, hj2⟩, List.append_assoc, List.getElem?_append_right (by omega), h1,
        List.getElem?_append_left (by simp; omega), List.getElem?_map]
    · rw [if_neg (by omega), List.getElem?_append_right (by simp; omega)]
      simp only [List.length_append, h1, List.length_map, List.getElem?_drop]
      congr 1; omega

theorem mapM_ok_drop_take {f : γ → Except PyErr β} : ∀ {xs : List γ} {ys : List β},
    xs.mapM f = .ok ys → ∀ a b, ((xs.drop a).take b).mapM f = .ok ((ys.drop a).take b) := by
  intro xs ys h
  obtain ⟨h1, h2⟩ := mapM_ok_spec h
  intro a b
  obtain ⟨zs, hz⟩ := mapM_ok_of (f := f) (xs := (xs.drop a).take b) (by
    intro x hx
    obtain ⟨i, hi, rfl⟩ := List.mem_iff_getElem.mp (List.mem_of_mem_drop (List.mem_of_mem_take hx))
    exact ⟨_, h2 i hi (by omega)⟩)
  rw [hz]
  obtain ⟨h3, h4⟩ := mapM_ok_spec hz
  congr 1
  apply List.ext_getElem
  · rw [h3]; simp [h1]
  · intro i hi hi'
    have hx : i < ((xs.drop a).take b).length := by omega
    have e := h4 i hx hi
    rw [List.getElem_take, List.getElem_drop, h2 (a + i) (by simp at hx; omega) (by simp at hi'; omega)] at e
    rw [List.getElem_take, List.getElem_drop]
    exact (Except.ok.inj e).symm

/-- The state after some chunks have completed, when all tasks succeed. -/
theorem foldl_set_ok {f : γ → Except PyErr β} {k : ℕ} (hk : 0 < k) {xs : List γ} {ys : List β}
    (h : xs.mapM f = .ok ys) (order : List ℕ) (ho : ∀ i ∈ order, i * k < xs.length) (s : MapState β)
    (hs : s.value.length = xs.length) (hf : s.failed = none) :
    let s' := order.foldl (fun (s : MapState β) i =>
      s.set k i (runChunk f ((chunksOf k xs.length xs).getD i []))) s
    s'.failed = none ∧ s'.value.length = xs.length ∧
      ∀ j, j < xs.length → s'.value[j]? = if j / k ∈ order then (ys[j]?).map some else s.value[j]? := by
  obtain ⟨hl, _⟩ := mapM_ok_spec h
  induction order generalizing s with
  | nil => exact ⟨hf, hs, by simp⟩
  | cons i order ih =>
    have hi := ho i (by simp)
    have hc : (chunksOf k xs.length xs).getD i [] = (xs.drop (i * k)).take k := by
      rw [List.getD_eq_getElem?_getD, chunksOf_get hk _ _ _ (le_refl _), if_pos hi]; rfl
    have hr : runChunk f ((chunksOf k xs.length xs).getD i []) = .ok ((ys.drop (i * k)).take k) := by
      rw [hc]; exact mapM_ok_drop_take h _ _
    have hvl : ((ys.drop (i * k)).take k).length = min k (xs.length - i * k) := by simp [hl]
    have hle : i * k + ((ys.drop (i * k)).take k).length ≤ s.value.length := by omega
    simp only [List.foldl_cons]
    rw [hr]
    have hlen : (s.set k i (.ok ((ys.drop (i * k)).take k))).value.length = xs.length := by
      simp only [MapState.set, List.length_append, List.length_take, List.length_map,
        List.length_drop]
      omega
    obtain ⟨h1, h2, h3⟩ := ih (fun i hi => ho i (List.mem_cons_of_mem _ hi))
      (s.set k i (.ok ((ys.drop (i * k)).take k))) hlen hf
    refine ⟨h1, h2, fun j hj => ?_⟩
    rw [h3 j hj]
    by_cases hjo : j / k ∈ order
    · rw [if_pos hjo, if_pos (List.mem_cons_of_mem _ hjo)]
    · rw [if_neg hjo, MapState.set_value_get hle]
      have hdiv : j / k = i ↔ i * k ≤ j ∧ j < i * k + k := by
        constructor
        · rintro rfl
          exact ⟨Nat.div_mul_le_self j k, Nat.lt_div_mul_add hk⟩
        · rintro ⟨h1, h2⟩
          exact Nat.div_eq_of_lt_le h1 (by rw [Nat.succ_mul]; exact h2)
      by_cases hji : j / k = i
      · obtain ⟨h4, h5⟩ := hdiv.mp hji
        rw [if_pos ⟨h4, by omega⟩, if_pos (by simp [hji])]
        rw [List.getElem?_take_of_lt (by omega), List.getElem?_drop]
        congr 2; omega
      · rw [if_neg, if_neg (by simp [hji, hjo])]
        rintro ⟨h4, h5⟩
        exact hji (hdiv.mpr ⟨h4, by omega⟩)

/-- The exception kept is the first one received. -/
theorem foldl_set_failed {k : ℕ} (g : ℕ → Except PyErr (List β)) (order : List ℕ) (s : MapState β) :
    (order.foldl (fun (s : MapState β) i => s.set k i (g i)) s).failed =
      s.failed.or ((order.filterMap fun i => match g i with
        | .ok _ => none
        | .error e => some e).head?) := by
  induction order generalizing s with
  | nil => simp
  | cons i order ih =>
    rw [List.foldl_cons, ih]
    cases hg : g i with
    | ok vs => simp [MapState.set, hg]
    | error e =>
      simp only [MapState.set, List.filterMap_cons, hg, List.head?_cons]
      cases s.failed <;> simp

end Permaviss
