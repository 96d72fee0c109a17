import Verif.Lemmas.Flag
import Mathlib.Algebra.Order.Ring.Int

namespace Permaviss

theorem filterMap_getElem?_range {β : Type} (l : List β) :
    (List.range l.length).filterMap (fun i => l[i]?) = l := by
  induction l with
  | nil => rfl
  | cons a l ih =>
    rw [List.length_cons, List.range_succ_eq_map, List.filterMap_cons]
    simp only [List.getElem?_cons_zero]
    rw [List.filterMap_map]
    congr 1

section
variable {α : Type} [LinearOrder α] [Zero α] {argsort : List α → List Nat}

omit [Zero α] in
theorem vrSort_perm (h : IsArgsort argsort) (l : List (List Nat × α)) :
    (vrSort argsort l).Perm l := by
  have := ((h (l.map Prod.snd)).1).filterMap fun i => l[i]?
  rw [List.length_map, filterMap_getElem?_range] at this
  exact this

omit [Zero α] in
theorem vrSort_sorted (h : IsArgsort argsort) (l : List (List Nat × α)) :
    ((vrSort argsort l).map Prod.snd).Pairwise (· ≤ ·) := by
  have := (h (l.map Prod.snd)).2
  unfold vrSort
  rw [List.map_filterMap]
  simpa using this

theorem mem_vrEdges {Dist : List (List α)} {maxR : α} {x : List Nat × α} :
    x ∈ vrEdges Dist maxR ↔ ∃ j i, j < i ∧ i < Dist.length ∧ distAt Dist i j < maxR ∧
      x = ([j, i], distAt Dist i j) := by
  simp only [vrEdges, List.mem_flatMap, List.mem_range, List.mem_map, List.mem_filter,
    decide_eq_true_eq]
  constructor
  · rintro ⟨i, hi, j, ⟨hj, hd⟩, rfl⟩; exact ⟨j, i, hj, hi, hd, rfl⟩
  · rintro ⟨j, i, hj, hi, hd, rfl⟩; exact ⟨i, hi, j, ⟨hj, hd⟩, rfl⟩

theorem vrEdges_nodup (Dist : List (List α)) (maxR : α) :
    ((vrEdges Dist maxR).map Prod.fst).Nodup := by
  unfold vrEdges
  rw [List.map_flatMap, List.nodup_flatMap]
  refine ⟨fun i _ => ?_, ?_⟩
  · rw [List.map_map]
    refine (List.nodup_range.filter _).map fun a b h => ?_
    simpa using h
  · refine List.nodup_range.imp fun {a b} hab x hxa hxb => hab ?_
    simp only [List.map_map, List.mem_map, Function.comp] at hxa hxb
    obtain ⟨m, -, rfl⟩ := hxa
    obtain ⟨n, -, h⟩ := hxb
    simp only [List.cons.injEq] at h
    exact h.2.1.symm

/-- The edges of the complex, as an edge list. -/
theorem vrEdges_isEdgeList (h : IsArgsort argsort) (Dist : List (List α)) (maxR : α) :
    IsEdgeList ((vrSort argsort (vrEdges Dist maxR)).map Prod.fst) := by
  refine ⟨?_, ?_⟩
  · intro e he
    obtain ⟨x, hx, rfl⟩ := List.mem_map.1 he
    obtain ⟨j, i, hji, -, -, rfl⟩ := mem_vrEdges.1 ((vrSort_perm h _).mem_iff.1 hx)
    exact ⟨j, i, hji, rfl⟩
  · exact (((vrSort_perm h _).map Prod.fst).nodup_iff).2 (vrEdges_nodup Dist maxR)

theorem mem_vrLower {E : List (List Nat)} (hE : IsEdgeList E) {u x : Nat} :
    x ∈ vrLower E u ↔ [x, u] ∈ E := by
  unfold vrLower
  rw [List.mem_insertionSort, List.mem_map]
  constructor
  · rintro ⟨e, he, rfl⟩
    rw [List.mem_filter] at he
    obtain ⟨a, b, hab, rfl⟩ := hE.edge e he.1
    have := of_decide_eq_true he.2
    simp only [List.getD_cons_succ, List.getD_cons_zero] at this
    rw [← this]; simpa using he.1
  · intro h
    exact ⟨[x, u], List.mem_filter.2 ⟨h, decide_eq_true (by simp)⟩, by simp⟩

theorem vrLower_nodup {E : List (List Nat)} (hE : IsEdgeList E) (u : Nat) :
    (vrLower E u).Nodup := by
  refine ((List.perm_insertionSort _ _).nodup_iff).2 ?_
  refine List.Nodup.map_on ?_ (hE.nodup.filter _)
  intro a ha b hb hab
  rw [List.mem_filter] at ha hb
  obtain ⟨a1, a2, -, rfl⟩ := hE.edge a ha.1
  obtain ⟨b1, b2, -, rfl⟩ := hE.edge b hb.1
  have h1 := of_decide_eq_true ha.2
  have h2 := of_decide_eq_true hb.2
  simp only [List.getD_cons_succ, List.getD_cons_zero] at h1 h2 hab
  simp [h1, h2, hab]

theorem mem_foldl_filter (E : List (List Nat)) (rest N : List Nat) (x : Nat) :
    x ∈ rest.foldl (fun N v => N.filter fun n => decide (n ∈ vrLower E v)) N ↔
      x ∈ N ∧ ∀ v ∈ rest, x ∈ vrLower E v := by
  induction rest generalizing N with
  | nil => simp
  | cons a rest ih =>
    rw [List.foldl_cons, ih]
    simp only [List.mem_filter, decide_eq_true_eq, List.mem_cons, forall_eq_or_imp]
    tauto

theorem mem_vrCommon {E : List (List Nat)} (hE : IsEdgeList E) {s : List Nat} (hs : s ≠ [])
    {x : Nat} : x ∈ vrCommon E s ↔ ∀ v ∈ s, [x, v] ∈ E := by
  cases s with
  | nil => exact absurd rfl hs
  | cons u rest =>
    rw [vrCommon, mem_foldl_filter]
    simp only [mem_vrLower hE, List.mem_cons, forall_eq_or_imp]

theorem vrCommon_nodup {E : List (List Nat)} (hE : IsEdgeList E) (s : List Nat) :
    (vrCommon E s).Nodup := by
  cases s with
  | nil => exact List.nodup_nil
  | cons u rest =>
    have : ∀ N : List Nat, N.Nodup →
        (rest.foldl (fun N v => N.filter fun n => decide (n ∈ vrLower E v)) N).Nodup := by
      induction rest with
      | nil => exact fun N h => h
      | cons a rest ih => exact fun N h => ih _ (h.filter _)
    exact this _ (vrLower_nodup hE u)

theorem vrRad_spec (Dist : List (List α)) (n : Nat) (s : List Nat) (r : α) :
    (∀ v ∈ s, distAt Dist v n ≤ vrRad Dist n s r) ∧ r ≤ vrRad Dist n s r ∧
      (vrRad Dist n s r = r ∨ ∃ v ∈ s, distAt Dist v n = vrRad Dist n s r) := by
  induction s generalizing r with
  | nil => simp [vrRad]
  | cons a s ih =>
    have e : vrRad Dist n (a :: s) r =
        vrRad Dist n s (if distAt Dist a n > r then distAt Dist a n else r) := rfl
    rw [e]
    obtain ⟨h1, h2, h3⟩ := ih (if distAt Dist a n > r then distAt Dist a n else r)
    have h4 : distAt Dist a n ≤ (if distAt Dist a n > r then distAt Dist a n else r) ∧
        r ≤ (if distAt Dist a n > r then distAt Dist a n else r) := by
      split
      · exact ⟨le_refl _, le_of_lt ‹_›⟩
      · exact ⟨not_lt.1 ‹_›, le_refl _⟩
    refine ⟨?_, le_trans h4.2 h2, ?_⟩
    · intro v hv
      rcases List.mem_cons.1 hv with rfl | hv
      · exact le_trans h4.1 h2
      · exact h1 v hv
    · rcases h3 with h3 | ⟨v, hv, h3⟩
      · rw [h3]
        split
        · exact Or.inr ⟨a, List.mem_cons_self, rfl⟩
        · exact Or.inl rfl
      · exact Or.inr ⟨v, List.mem_cons_of_mem _ hv, h3⟩

/-- Adding a smaller vertex `n` to `s`. -/
theorem isDiameter_cons {Dist : List (List α)} {n : Nat} {s : List Nat} {r : α}
    (hs : IsDiameter (distAt Dist) s r) (hn : ∀ v ∈ s, n < v) :
    IsDiameter (distAt Dist) (n :: s) (vrRad Dist n s r) := by
  obtain ⟨h1, h2, h3⟩ := vrRad_spec Dist n s r
  refine ⟨?_, ?_⟩
  · intro u hu v hv huv
    rcases List.mem_cons.1 hu with rfl | hus
    · rcases List.mem_cons.1 hv with rfl | hv
      · exact absurd huv (lt_irrefl _)
      · exact h1 v hv
    · have hu := hus
      rcases List.mem_cons.1 hv with rfl | hv
      · exact absurd huv (not_lt.2 (le_of_lt (hn u ‹_›)))
      · exact le_trans (hs.1 u hu v hv huv) h2
  · rcases h3 with h3 | ⟨v, hv, h3⟩
    · obtain ⟨u, hu, v, hv, huv, e⟩ := hs.2
      exact ⟨u, List.mem_cons_of_mem _ hu, v, List.mem_cons_of_mem _ hv, huv, by rw [e, h3]⟩
    · exact ⟨n, List.mem_cons_self, v, List.mem_cons_of_mem _ hv, hn v hv, h3⟩

omit [Zero α] in
theorem IsDiameter.unique {dist : Nat → Nat → α} {s : List Nat} {r r' : α}
    (h : IsDiameter dist s r) (h' : IsDiameter dist s r') : r = r' := by
  obtain ⟨u, hu, v, hv, huv, e⟩ := h.2
  obtain ⟨u', hu', v', hv', huv', e'⟩ := h'.2
  apply le_antisymm
  · rw [← e]; exact h'.1 u hu v hv huv
  · rw [← e']; exact h.1 u' hu' v' hv' huv'

theorem vrLevel_spec (h : IsArgsort argsort) (Dist : List (List α)) (maxR : α) (d : Nat) :
    ((vrLevel argsort Dist maxR d).map Prod.fst).Nodup ∧
    ((vrLevel argsort Dist maxR d).map Prod.snd).Pairwise (· ≤ ·) ∧
    ∀ s r, (s, r) ∈ vrLevel argsort Dist maxR d ↔
      s.length = d + 2 ∧ IsSmall (distAt Dist) Dist.length maxR s ∧
        IsDiameter (distAt Dist) s r := by
  have hE := vrEdges_isEdgeList h Dist maxR
  have memE : ∀ u v, [u, v] ∈ (vrSort argsort (vrEdges Dist maxR)).map Prod.fst ↔
      u < v ∧ v < Dist.length ∧ distAt Dist v u < maxR := by
    intro u v
    rw [List.mem_map]
    constructor
    · rintro ⟨x, hx, e⟩
      obtain ⟨j, i, hji, hi, hd, rfl⟩ := mem_vrEdges.1 ((vrSort_perm h _).mem_iff.1 hx)
      simp only [List.cons.injEq, and_true] at e
      rw [← e.1, ← e.2]
      exact ⟨hji, hi, hd⟩
    · rintro ⟨h1, h2, h3⟩
      exact ⟨_, (vrSort_perm h _).mem_iff.2 (mem_vrEdges.2 ⟨u, v, h1, h2, h3, rfl⟩), rfl⟩
  induction d with
  | zero =>
    refine ⟨hE.nodup, vrSort_sorted h _, fun s r => ?_⟩
    simp only [vrLevel]
    rw [(vrSort_perm h _).mem_iff, mem_vrEdges]
    constructor
    · rintro ⟨j, i, hji, hi, hd, e⟩
      simp only [Prod.mk.injEq] at e
      obtain ⟨rfl, rfl⟩ := e
      refine ⟨rfl, ⟨?_, ?_⟩, ?_, ?_⟩
      · intro v hv
        simp only [List.mem_cons, List.not_mem_nil, or_false] at hv
        omega
      · simp [hji, hd]
      · intro u hu v hv huv
        simp only [List.mem_cons, List.not_mem_nil, or_false] at hu hv
        have : u = j ∧ v = i := by omega
        rw [this.1, this.2]
      · exact ⟨j, by simp, i, by simp, hji, rfl⟩
    · rintro ⟨hl, ⟨hv, hp⟩, hdm⟩
      match s, hl with
      | [u, v], _ =>
        simp only [List.pairwise_cons, List.mem_singleton, forall_eq] at hp
        refine ⟨u, v, hp.1.1, hv v (by simp), hp.1.2, ?_⟩
        obtain ⟨u', hu', v', hv', huv', e⟩ := hdm.2
        simp only [List.mem_cons, List.not_mem_nil, or_false] at hu' hv'
        have := hp.1.1
        have : u' = u ∧ v' = v := by omega
        rw [← e, this.1, this.2]
  | succ d ih =>
    obtain ⟨ih1, -, ih3⟩ := ih
    have perm := vrSort_perm h (vrNext Dist ((vrSort argsort (vrEdges Dist maxR)).map Prod.fst)
          (vrLevel argsort Dist maxR d))
    refine ⟨?_, vrSort_sorted h _, fun s r => ?_⟩
    · refine ((perm.map Prod.fst).nodup_iff).2 ?_
      unfold vrNext
      have := nodup_flatMap_cons ih1 _ (fun s => vrCommon_nodup hE s)
      rw [List.flatMap_map] at this
      rw [List.map_flatMap]
      simp only [List.map_map]
      exact this
    · simp only [vrLevel]
      rw [perm.mem_iff]
      simp only [vrNext, List.mem_flatMap, List.mem_map]
      constructor
      · rintro ⟨⟨t, q⟩, ht, n, hn, e⟩
        simp only [Prod.mk.injEq] at e hn
        obtain ⟨rfl, rfl⟩ := e
        obtain ⟨hl, hsm, hdm⟩ := (ih3 t q).1 ht
        have hne : t ≠ [] := by rintro rfl; simp at hl
        rw [mem_vrCommon hE hne] at hn
        have hn' := fun v hv => (memE n v).1 (hn v hv)
        refine ⟨by simp [hl], ⟨?_, ?_⟩, isDiameter_cons hdm fun v hv => (hn' v hv).1⟩
        · intro v hv
          rcases List.mem_cons.1 hv with rfl | hv
          · obtain ⟨w, hw⟩ := List.exists_mem_of_ne_nil t hne
            have := hn' w hw
            omega
          · exact hsm.1 v hv
        · exact List.pairwise_cons.2 ⟨fun v hv => ⟨(hn' v hv).1, (hn' v hv).2.2⟩, hsm.2⟩
      · rintro ⟨hl, ⟨hv, hp⟩, hdm⟩
        cases s with
        | nil => simp at hl
        | cons n t =>
          obtain ⟨h1, h2⟩ := List.pairwise_cons.1 hp
          have hl' : t.length = d + 2 := by simpa using hl
          have hne : t ≠ [] := by rintro rfl; simp at hl'
          -- the diameter of the tail
          have hsm : IsSmall (distAt Dist) Dist.length maxR t :=
            ⟨fun v hv' => hv v (List.mem_cons_of_mem _ hv'), h2⟩
          obtain ⟨q, hq⟩ : ∃ q, IsDiameter (distAt Dist) t q := by
            -- every list with two increasing entries has a diameter
            have : ∀ t : List Nat, 2 ≤ t.length → t.Pairwise (· < ·) →
                ∃ q, IsDiameter (distAt Dist) t q := by
              intro t
              induction t with
              | nil => simp
              | cons a t iht =>
                intro hlen hpw
                obtain ⟨g1, g2⟩ := List.pairwise_cons.1 hpw
                by_cases hc : 2 ≤ t.length
                · obtain ⟨q, hq⟩ := iht hc g2
                  exact ⟨_, isDiameter_cons hq g1⟩
                · match t, hlen, hc with
                  | [b], _, _ =>
                    refine ⟨distAt Dist b a, ?_, a, by simp, b, by simp, g1 b (by simp), rfl⟩
                    intro u hu v hv huv
                    simp only [List.mem_cons, List.not_mem_nil, or_false] at hu hv
                    have := g1 b (by simp)
                    have : u = a ∧ v = b := by omega
                    rw [this.1, this.2]
                  | [], hlen, _ => simp at hlen
                  | _ :: _ :: _, _, hc => simp at hc
            exact this t (by omega) (h2.imp fun h => h.1)
          refine ⟨(t, q), (ih3 t q).2 ⟨hl', hsm, hq⟩, n,
            (mem_vrCommon hE hne).2 fun v hv' => (memE n v).2
              ⟨(h1 v hv').1, hv v (List.mem_cons_of_mem _ hv'), (h1 v hv').2⟩, ?_⟩
          have := (isDiameter_cons hq fun v hv' => (h1 v hv').1).unique hdm
          simp [this]

end

end Permaviss
