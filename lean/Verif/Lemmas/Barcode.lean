import Verif.Model.Barcode
import Verif.Lemmas.Flag
import Verif.Lemmas.Vec
import Mathlib.Tactic.Push

namespace Permaviss

variable {α : Type} [LinearOrder α]

theorem maskBy_map {β : Type} (q : β → Bool) (l : List β) : maskBy (l.map q) l = l.filter q := by
  induction l with
  | nil => rfl
  | cons a l ih => cases h : q a <;> simp [maskBy, h, ih]

theorem zip_maskBy {β γ : Type} (q : β → Bool) (l : List β) (m : List γ) (h : l.length = m.length) :
    (l.filter q).zip (maskBy (l.map q) m) = (l.zip m).filter fun x => q x.1 := by
  induction l generalizing m with
  | nil => simp
  | cons a l ih =>
    cases m with
    | nil => simp at h
    | cons c m =>
      have := ih m (by simpa using h)
      cases hq : q a <;> simp [maskBy, hq, this]

theorem length_maskBy {β γ : Type} (q : β → Bool) (l : List β) (m : List γ)
    (h : l.length = m.length) : (maskBy (l.map q) m).length = (l.filter q).length := by
  induction l generalizing m with
  | nil => simp [maskBy]
  | cons a l ih =>
    cases m with
    | nil => simp at h
    | cons c m =>
      have := ih m (by simpa using h)
      cases hq : q a <;> simp [maskBy, hq, this]

theorem maskBy_subset {β : Type} (m : List Bool) (l : List β) : maskBy m l ⊆ l := by
  induction m generalizing l with
  | nil => simp [maskBy]
  | cons b m ih =>
    cases l with
    | nil => cases b <;> simp [maskBy]
    | cons a l =>
      cases b
      · simp only [maskBy]; exact fun x hx => List.mem_cons_of_mem _ (ih l hx)
      · simp only [maskBy]; exact List.cons_subset_cons _ (ih l)

theorem gather_perm {β : Type} {l : List β} {idx : List Nat} (h : idx.Perm (List.range l.length)) :
    (gather l idx).Perm l := by
  have := h.filterMap fun i => l[i]?
  unfold gather
  refine this.trans ?_
  have e : (List.range l.length).filterMap (fun i => l[i]?) = l := by
    induction l generalizing idx with
    | nil => rfl
    | cons a l ih =>
      rw [List.length_cons, List.range_succ_eq_map, List.filterMap_cons]
      simp only [List.getElem?_cons_zero]
      rw [List.filterMap_map]
      congr 1
      exact ih (List.Perm.refl _) ((List.Perm.refl _).filterMap _)
  rw [e]

theorem gather_eq_map {β : Type} {l : List β} {idx : List Nat} (x : β)
    (h : ∀ i ∈ idx, i < l.length) : gather l idx = idx.map fun i => l.getD i x := by
  induction idx with
  | nil => rfl
  | cons i idx ih =>
    have hi := h i (by simp)
    unfold gather at ih ⊢
    rw [List.filterMap_cons, List.getElem?_eq_getElem hi, List.map_cons,
      ih fun j hj => h j (by simp [hj])]
    simp only [List_getD_eq_getElem _ _ hi]

theorem length_gather {β : Type} {l : List β} {idx : List Nat} (h : ∀ i ∈ idx, i < l.length) :
    (gather l idx).length = idx.length := by
  induction idx with
  | nil => rfl
  | cons i idx ih =>
    have hi := h i (by simp)
    unfold gather at ih ⊢
    rw [List.filterMap_cons, List.getElem?_eq_getElem hi]
    simp [ih fun j hj => h j (by simp [hj])]

theorem gather_getElem? {β : Type} {l : List β} {idx : List Nat} (h : ∀ i ∈ idx, i < l.length)
    (k : Nat) : (gather l idx)[k]? = (idx[k]?).bind fun i => l[i]? := by
  induction idx generalizing k with
  | nil => simp [gather]
  | cons i idx ih =>
    have hi := h i (by simp)
    have ih' := ih (fun j hj => h j (by simp [hj]))
    have e : gather l (i :: idx) = l[i] :: gather l idx := by
      unfold gather
      rw [List.filterMap_cons, List.getElem?_eq_getElem hi]
    rw [e]
    cases k with
    | zero => simp [hi]
    | succ k => simpa using ih' k

theorem gather_map {β γ : Type} (f : β → γ) (l : List β) (idx : List Nat) :
    gather (l.map f) idx = (gather l idx).map f := by
  unfold gather
  rw [List.map_filterMap]
  simp

/-! ### The order of `sort` -/

omit [LinearOrder α] in
theorem barLE_total [LinearOrder α] (rnd : α → α) (a b : α × α) : barLE rnd a b ∨ barLE rnd b a := by
  unfold barLE
  rcases lt_trichotomy (rnd a.1) (rnd b.1) with h | h | h
  · exact Or.inl (Or.inl h)
  · rcases le_total (rnd a.2) (rnd b.2) with h' | h'
    · exact Or.inr (Or.inr ⟨h.symm, h'⟩)
    · exact Or.inl (Or.inr ⟨h, h'⟩)
  · exact Or.inr (Or.inl h)

theorem barLE_trans (rnd : α → α) {a b c : α × α} (h : barLE rnd a b) (h' : barLE rnd b c) :
    barLE rnd a c := by
  unfold barLE at *
  rcases h with h | ⟨h1, h2⟩ <;> rcases h' with h' | ⟨h1', h2'⟩
  · exact Or.inl (h.trans h')
  · exact Or.inl (h1' ▸ h)
  · exact Or.inl (h1 ▸ h')
  · exact Or.inr ⟨h1.trans h1', h2'.trans h2⟩

/-- Order and stability: what the sorted list of (bar, position) pairs satisfies. -/
def StableLE (rnd : α → α) (x y : (α × α) × Nat) : Prop :=
  barLE rnd x.1 y.1 ∧ (barLE rnd y.1 x.1 → x.2 < y.2)

theorem stable_orderedInsert (rnd : α → α) (a : (α × α) × Nat) (L : List ((α × α) × Nat))
    (hL : L.Pairwise (StableLE rnd)) (ha : ∀ x ∈ L, a.2 < x.2) :
    (L.orderedInsert (fun a b => barLE rnd a.1 b.1) a).Pairwise (StableLE rnd) := by
  induction L with
  | nil => simp
  | cons b L ih =>
    rw [List.orderedInsert_cons]
    obtain ⟨h1, h2⟩ := List.pairwise_cons.1 hL
    split_ifs with h
    · refine List.pairwise_cons.2 ⟨fun x hx => ⟨?_, fun _ => ha x hx⟩, hL⟩
      rcases List.mem_cons.1 hx with rfl | hx
      · exact h
      · exact barLE_trans rnd h (h1 x hx).1
    · refine List.pairwise_cons.2 ⟨fun x hx => ?_, ih h2 fun x hx => ha x (by simp [hx])⟩
      rw [List.mem_orderedInsert] at hx
      rcases hx with rfl | hx
      · exact ⟨(barLE_total rnd _ _).resolve_left h, fun h' => absurd h' h⟩
      · exact h1 x hx

theorem stable_insertionSort (rnd : α → α) (L : List ((α × α) × Nat))
    (hL : L.Pairwise fun x y => x.2 < y.2) :
    (L.insertionSort fun a b => barLE rnd a.1 b.1).Pairwise (StableLE rnd) := by
  induction L with
  | nil => simp
  | cons a L ih =>
    obtain ⟨h1, h2⟩ := List.pairwise_cons.1 hL
    rw [List.insertionSort_cons]
    refine stable_orderedInsert rnd a _ (ih h2) fun x hx => h1 x ?_
    rwa [List.mem_insertionSort] at hx

theorem sortOrder_perm (rnd : α → α) (bars : List (α × α)) :
    (sortOrder rnd bars).Perm (List.range bars.length) := by
  have h := (List.perm_insertionSort (fun a b : (α × α) × Nat => barLE rnd a.1 b.1)
    (bars.zip (List.range bars.length))).map Prod.snd
  rwa [List.map_snd_zip (by simp)] at h

theorem zip_range_pairwise {β : Type} (l : List β) :
    (l.zip (List.range l.length)).Pairwise fun x y => x.2 < y.2 := by
  rw [← List.pairwise_map (f := Prod.snd) (R := fun a b : Nat => a < b), List.map_snd_zip (by simp)]
  exact List.pairwise_lt_range

theorem mem_zip_range {β : Type} {l : List β} {x : β × Nat}
    (h : x ∈ l.zip (List.range l.length)) : l[x.2]? = some x.1 := by
  obtain ⟨i, hi, e⟩ := List.getElem_of_mem h
  simp only [List.getElem_zip, List.getElem_range] at e
  rw [← e]
  simp only [List.length_zip, List.length_range, min_self] at hi
  simp [hi]

/-- `order` lists positions so that bars are in standard order, ties in the original order. -/
theorem sortOrder_stable (rnd : α → α) (bars : List (α × α)) :
    (sortOrder rnd bars).Pairwise fun i j => ∀ a b, bars[i]? = some a → bars[j]? = some b →
      barLE rnd a b ∧ (barLE rnd b a → i < j) := by
  unfold sortOrder
  rw [List.pairwise_map]
  have h := stable_insertionSort rnd _ (zip_range_pairwise bars)
  refine List.Pairwise.imp_of_mem ?_ h
  intro x y hx hy hxy a b ha hb
  rw [List.mem_insertionSort] at hx hy
  rw [mem_zip_range hx] at ha
  rw [mem_zip_range hy] at hb
  obtain rfl := Option.some.inj ha
  obtain rfl := Option.some.inj hb
  exact hxy

omit [LinearOrder α] in
theorem mem_barIndices {bars : List (α × α)} {q : α × α → Bool} {i : Nat} :
    i ∈ barIndices bars q ↔ ∃ b, bars[i]? = some b ∧ q b = true := by
  simp only [barIndices, List.mem_filter, List.mem_range]
  constructor
  · rintro ⟨h, h'⟩
    rw [List.getElem?_eq_getElem h] at h' ⊢
    exact ⟨_, rfl, by simpa using h'⟩
  · rintro ⟨b, h, h'⟩
    refine ⟨(List.getElem?_eq_some_iff.1 h).1, ?_⟩
    rw [h]; simpa using h'

omit [LinearOrder α] in
theorem barIndices_sorted (bars : List (α × α)) (q : α × α → Bool) :
    (barIndices bars q).Pairwise (· < ·) := List.Pairwise.filter _ List.pairwise_lt_range

end Permaviss
