import Verif.Model.Complexes
import Verif.Spec.Complex

namespace Permaviss

theorem mem_npUnique {α : Type} [LinearOrder α] {l : List α} {x : α} :
    x ∈ npUnique l ↔ x ∈ l := by
  simp [npUnique]

theorem npUnique_nodup {α : Type} [LinearOrder α] (l : List α) : (npUnique l).Nodup :=
  ((List.perm_insertionSort _ _).nodup_iff).2 (List.nodup_dedup l)

theorem npUnique_sorted {α : Type} [LinearOrder α] (l : List α) :
    (npUnique l).Pairwise (· ≤ ·) := List.pairwise_insertionSort _ _

theorem npUnique_strict {α : Type} [LinearOrder α] (l : List α) :
    (npUnique l).Pairwise (· < ·) := by
  have h := (npUnique_sorted l).and (npUnique_nodup l)
  exact h.imp fun h => lt_of_le_of_ne h.1 h.2

theorem mem_flagLower {G : List (List Nat)} (hG : IsEdgeList G) {u x : Nat} :
    x ∈ flagLower G u ↔ [x, u] ∈ G := by
  unfold flagLower
  rw [mem_npUnique, List.mem_map]
  constructor
  · rintro ⟨e, he, rfl⟩
    rw [List.mem_filter] at he
    obtain ⟨a, b, hab, rfl⟩ := hG.edge e he.1
    have := of_decide_eq_true he.2
    simp only [rowMax, List.foldl] at this
    have hb : b = u := by omega
    have : rowMin [a, b] = a := by simp only [rowMin, List.foldl]; omega
    rw [this, ← hb]; exact he.1
  · intro h
    obtain ⟨a, b, hab, e⟩ := hG.edge _ h
    simp only [List.cons.injEq, and_true] at e
    refine ⟨[x, u], List.mem_filter.2 ⟨h, ?_⟩, ?_⟩
    · refine decide_eq_true ?_
      simp only [rowMax, List.foldl]; omega
    · simp only [rowMin, List.foldl]; omega

theorem mem_foldl_intersect (G : List (List Nat)) (rest : List Nat) (N : List Nat) (x : Nat) :
    x ∈ rest.foldl (fun N v => npIntersect1d N (flagLower G v)) N ↔
      x ∈ N ∧ ∀ v ∈ rest, x ∈ flagLower G v := by
  induction rest generalizing N with
  | nil => simp
  | cons a rest ih =>
    rw [List.foldl_cons, ih]
    simp only [npIntersect1d, mem_npUnique, List.mem_filter, decide_eq_true_eq, List.mem_cons,
      forall_eq_or_imp]
    tauto

theorem mem_flagCommon {G : List (List Nat)} (hG : IsEdgeList G) {s : List Nat} (hs : s ≠ [])
    {x : Nat} : x ∈ flagCommon G s ↔ ∀ v ∈ s, [x, v] ∈ G := by
  cases s with
  | nil => exact absurd rfl hs
  | cons u rest =>
    simp only [flagCommon, mem_foldl_intersect, mem_flagLower hG, List.mem_cons, forall_eq_or_imp]

theorem foldl_intersect_nodup (G : List (List Nat)) (rest N : List Nat) (hN : N.Nodup) :
    (rest.foldl (fun N v => npIntersect1d N (flagLower G v)) N).Nodup := by
  induction rest generalizing N with
  | nil => exact hN
  | cons a rest ih => exact ih _ (npUnique_nodup _)

theorem flagCommon_nodup (G : List (List Nat)) (s : List Nat) : (flagCommon G s).Nodup := by
  cases s with
  | nil => exact List.nodup_nil
  | cons u rest => exact foldl_intersect_nodup _ _ _ (npUnique_nodup _)

/-- Extending every element of a duplicate free list by a duplicate free list of heads. -/
theorem nodup_flatMap_cons {S : List (List Nat)} (hS : S.Nodup) (f : List Nat → List Nat)
    (hf : ∀ s, (f s).Nodup) : (S.flatMap fun s => (f s).map fun n => n :: s).Nodup := by
  rw [List.nodup_flatMap]
  refine ⟨fun s _ => (hf s).map fun a b h => by simpa using h, ?_⟩
  refine hS.imp fun {a b} hab x hxa hxb => hab ?_
  obtain ⟨m, -, rfl⟩ := List.mem_map.1 hxa
  obtain ⟨n, -, h⟩ := List.mem_map.1 hxb
  simp only [List.cons.injEq] at h
  exact h.2.symm

theorem flagLevel_spec {G : List (List Nat)} (hG : IsEdgeList G) (d : Nat) :
    (flagLevel G d).Nodup ∧
      ∀ s, s ∈ flagLevel G d ↔ s.length = d + 2 ∧ IsClique G s := by
  induction d with
  | zero =>
    refine ⟨hG.nodup, fun s => ?_⟩
    simp only [flagLevel]
    constructor
    · intro h
      obtain ⟨u, v, huv, rfl⟩ := hG.edge s h
      simp [IsClique, huv, h]
    · rintro ⟨hl, hc⟩
      match s, hl with
      | [u, v], _ =>
        simp only [IsClique, List.pairwise_cons, List.mem_singleton, forall_eq] at hc
        exact hc.1.2
  | succ d ih =>
    refine ⟨nodup_flatMap_cons ih.1 _ (flagCommon_nodup G), fun s => ?_⟩
    simp only [flagLevel, flagNext, List.mem_flatMap, List.mem_map]
    constructor
    · rintro ⟨t, ht, n, hn, rfl⟩
      obtain ⟨hl, hc⟩ := (ih.2 t).1 ht
      have hne : t ≠ [] := by rintro rfl; simp at hl
      rw [mem_flagCommon hG hne] at hn
      refine ⟨by simp [hl], List.pairwise_cons.2 ⟨fun v hv => ⟨?_, hn v hv⟩, hc⟩⟩
      obtain ⟨a, b, hab, e⟩ := hG.edge _ (hn v hv)
      simp only [List.cons.injEq, and_true] at e
      omega
    · rintro ⟨hl, hc⟩
      cases s with
      | nil => simp at hl
      | cons n t =>
        obtain ⟨h1, h2⟩ := List.pairwise_cons.1 hc
        have hl' : t.length = d + 2 := by simpa using hl
        have hne : t ≠ [] := by rintro rfl; simp at hl'
        exact ⟨t, (ih.2 t).2 ⟨hl', h2⟩, n, (mem_flagCommon hG hne).2 fun v hv => (h1 v hv).2, rfl⟩

end Permaviss
