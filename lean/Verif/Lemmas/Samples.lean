import Verif.Model.Samples
import Verif.Spec.Samples
import Verif.Lemmas.Vec
import Verif.Lemmas.Pages
import Mathlib.Tactic.Linarith
import Mathlib.Tactic.Ring

namespace Permaviss

variable {K : Type} [Field K] [LinearOrder K]

theorem foldr_min_le (l : List K) (x : K) : l.foldr min x ≤ x ∧ ∀ y ∈ l, l.foldr min x ≤ y := by
  induction l with
  | nil => simp
  | cons a l ih =>
      refine ⟨(min_le_right _ _).trans ih.1, ?_⟩
      intro y hy
      rcases List.mem_cons.1 hy with rfl | hy
      · exact min_le_left _ _
      · exact (min_le_right _ _).trans (ih.2 y hy)

theorem foldr_min_mem (l : List K) (x : K) : l.foldr min x = x ∨ l.foldr min x ∈ l := by
  induction l with
  | nil => simp
  | cons a l ih =>
      simp only [List.foldr_cons]
      rcases min_choice a (l.foldr min x) with h | h <;> rw [h]
      · exact .inr (List.mem_cons_self ..)
      · exact ih.imp id (List.mem_cons_of_mem _)

theorem npMin_le {l : List K} {y : K} (h : y ∈ l) : npMin l ≤ y := by
  cases l with
  | nil => cases h
  | cons x xs =>
      rcases List.mem_cons.1 h with rfl | h
      · exact (foldr_min_le xs _).1
      · exact (foldr_min_le xs _).2 _ h

theorem npMin_mem {l : List K} (h : l ≠ []) : npMin l ∈ l := by
  cases l with
  | nil => exact absurd rfl h
  | cons x xs =>
      rcases foldr_min_mem xs x with h | h
      · rw [npMin, h]; exact List.mem_cons_self ..
      · exact List.mem_cons_of_mem _ h

theorem foldr_max_le (l : List K) (x : K) : x ≤ l.foldr max x ∧ ∀ y ∈ l, y ≤ l.foldr max x := by
  induction l with
  | nil => simp
  | cons a l ih =>
      refine ⟨ih.1.trans (le_max_right _ _), ?_⟩
      intro y hy
      rcases List.mem_cons.1 hy with rfl | hy
      · exact le_max_left _ _
      · exact (ih.2 y hy).trans (le_max_right _ _)

theorem foldr_max_mem (l : List K) (x : K) : l.foldr max x = x ∨ l.foldr max x ∈ l := by
  induction l with
  | nil => simp
  | cons a l ih =>
      simp only [List.foldr_cons]
      rcases max_choice a (l.foldr max x) with h | h <;> rw [h]
      · exact .inr (List.mem_cons_self ..)
      · exact ih.imp id (List.mem_cons_of_mem _)

theorem le_npMax {l : List K} {y : K} (h : y ∈ l) : y ≤ npMax l := by
  cases l with
  | nil => cases h
  | cons x xs =>
      rcases List.mem_cons.1 h with rfl | h
      · exact (foldr_max_le xs _).1
      · exact (foldr_max_le xs _).2 _ h

theorem npMax_mem {l : List K} (h : l ≠ []) : npMax l ∈ l := by
  cases l with
  | nil => exact absurd rfl h
  | cons x xs =>
      rcases foldr_max_mem xs x with h | h
      · rw [npMax, h]; exact List.mem_cons_self ..
      · exact List.mem_cons_of_mem _ h

theorem idxOf_getElem_le : ∀ {l : List K} {i : Nat} (hi : i < l.length),
    l.idxOf l[i] ≤ i := by
  intro l
  induction l with
  | nil => intro i hi; simp at hi
  | cons a l ih =>
      intro i hi
      cases i with
      | zero => simp
      | succ i =>
          simp only [List.getElem_cons_succ, List.idxOf_cons]
          have := ih (i := i) (by simpa using hi)
          cases h : (a == l[i]'(by simpa using hi)) <;> simp <;> omega

/-- `np.argmax` points at the first largest entry. -/
theorem npArgmax_spec {l : List K} (h : l ≠ []) :
    ∃ hlt : npArgmax l < l.length, (∀ y ∈ l, y ≤ l[npArgmax l]) ∧
      ∀ (i : Nat) (hi : i < npArgmax l), l[i]'(hi.trans hlt) < l[npArgmax l] := by
  have hlt : npArgmax l < l.length := List.idxOf_lt_length_of_mem (npMax_mem h)
  have hv : l[npArgmax l] = npMax l := List.getElem_idxOf hlt
  refine ⟨hlt, fun y hy => hv ▸ le_npMax hy, ?_⟩
  intro i hi
  rw [hv]
  refine lt_of_le_of_ne (le_npMax (List.getElem_mem _)) ?_
  intro he
  have h1 : l.idxOf (npMax l) ≤ i := by
    have := idxOf_getElem_le (l := l) (hi.trans hlt)
    exact he ▸ this
  unfold npArgmax at hi
  omega

variable [FloorRing K]

/-- The invariant of the loop of `take_sample`. -/
structure SampleInv (D : Nat → Nat → K) (n : Nat) (sel : List Int) : Prop where
  ne : sel ≠ []
  ge : ∀ k ∈ sel, -1 ≤ k ∧ k < n
  head : ∀ k ∈ sel.tail, 0 ≤ k
  nodup : (sel.map (pyIdx n)).Nodup
  far : ∀ k, 0 < k → k < sel.length → ∀ i < n, ∃ a < k, ∀ b < k,
    D i ((sel.map (pyIdx n)).getD a 0) ≤ D ((sel.map (pyIdx n)).getD k 0) ((sel.map (pyIdx n)).getD b 0)

theorem pyIdx_lt {n : Nat} {k : Int} (hn : 0 < n) (h1 : -1 ≤ k) (h2 : k < n) : pyIdx n k < n := by
  unfold pyIdx; split <;> omega

theorem pyIdx_of_nonneg {n : Nat} {k : Int} (h : 0 ≤ k) : ((pyIdx n k : Nat) : Int) = k := by
  unfold pyIdx; split <;> omega

theorem pyIdx_natCast (n i : Nat) : pyIdx n (i : Int) = i := by
  have := pyIdx_of_nonneg (n := n) (Int.natCast_nonneg i); omega

theorem mem_notSelected {n i : Nat} {sel : List Int} :
    i ∈ notSelected n sel ↔ i < n ∧ (i : Int) ∉ sel := by
  simp [notSelected]

theorem notSelected_ne_nil {n : Nat} {sel : List Int} (h : sel.length < n) : notSelected n sel ≠ [] := by
  intro h0
  have hall : ∀ i < n, (i : Int) ∈ sel := by
    intro i hi
    by_contra hc
    have : i ∈ notSelected n sel := mem_notSelected.2 ⟨hi, hc⟩
    rw [h0] at this; cases this
  have hsub : ((List.range n).map (fun i : Nat => (i : Int))) ⊆ sel := by
    intro x hx
    obtain ⟨i, hi, rfl⟩ := List.mem_map.1 hx
    exact hall i (List.mem_range.1 hi)
  have hnd : ((List.range n).map (fun i : Nat => (i : Int))).Nodup :=
    List.Nodup.map (fun a b h => by exact_mod_cast h) List.nodup_range
  have := (hnd.subperm hsub).length_le
  simp at this; omega

theorem takeStep_inv {D : Nat → Nat → K} {n : Nat} {sel : List Int} (hn : 0 < n)
    (hD0 : ∀ i, D i i = 0) (hDn : ∀ i j, 0 ≤ D i j)
    (h : SampleInv D n sel) (hlt : sel.length < n) :
    ∃ sel', takeStep D n sel = .ok sel' ∧ SampleInv D n sel' ∧ sel'.length = sel.length + 1 := by
  have hne := notSelected_ne_nil hlt
  set ns := notSelected n sel with hns
  set f : Nat → K := fun i => npMin (sel.map fun s => D i (pyIdx n s)) with hf
  have hmne : ns.map f ≠ [] := by simpa using hne
  obtain ⟨hk, hmax, hfirst⟩ := npArgmax_spec hmne
  set k := npArgmax (ns.map f) with hkdef
  have hk' : k < ns.length := by simpa using hk
  set c := ns[k] with hc
  have hcn : c < n ∧ (c : Int) ∉ sel := mem_notSelected.1 (hns ▸ List.getElem_mem hk')
  have hval : (ns.map f)[k] = f c := by simp [hc]
  have hselne : ∀ i, sel.map (fun s => D i (pyIdx n s)) ≠ [] := fun i => by simpa using h.ne
  -- the smallest distance is zero for a point already taken
  have hzero : ∀ i ∈ sel.map (pyIdx n), f i = 0 := by
    intro i hi
    obtain ⟨s, hs, rfl⟩ := List.mem_map.1 hi
    apply le_antisymm
    · have : D (pyIdx n s) (pyIdx n s) ∈ sel.map (fun s' => D (pyIdx n s) (pyIdx n s')) :=
        List.mem_map.2 ⟨s, hs, rfl⟩
      have := npMin_le this
      rwa [hD0] at this
    · obtain ⟨s', _, hs'⟩ := List.mem_map.1 (npMin_mem (hselne (pyIdx n s)))
      change (0:K) ≤ npMin _
      rw [← hs']; exact hDn _ _
  have hpos : ∀ i, 0 ≤ f i := by
    intro i
    obtain ⟨s', _, hs'⟩ := List.mem_map.1 (npMin_mem (hselne i))
    change (0:K) ≤ npMin _
    rw [← hs']; exact hDn _ _
  have hbest : ∀ i < n, f i ≤ f c := by
    intro i hi
    by_cases his : (i : Int) ∈ sel
    · have : i ∈ sel.map (pyIdx n) := List.mem_map.2 ⟨_, his, pyIdx_natCast n i⟩
      rw [hzero i this]; exact hpos c
    · have : i ∈ ns := hns ▸ mem_notSelected.2 ⟨hi, his⟩
      have := hmax (f i) (List.mem_map.2 ⟨i, this, rfl⟩)
      rwa [hval] at this
  -- the chosen point is new
  have hnew : c ∉ sel.map (pyIdx n) := by
    intro hmem
    obtain ⟨s, hs, hsc⟩ := List.mem_map.1 hmem
    have hs0 : s < 0 := by
      by_contra h0
      have := pyIdx_of_nonneg (n := n) (k := s) (by omega)
      rw [hsc] at this
      exact hcn.2 (this ▸ hs)
    have hs1 : s = -1 := by have := (h.ge s hs).1; omega
    have hcl : c = n - 1 := by rw [← hsc, hs1]; unfold pyIdx; split <;> omega
    have hfc : f c = 0 := hzero c hmem
    -- then it is the first of the points not selected
    have hk0 : k = 0 := by
      by_contra hk0
      have h1 := hfirst 0 (by omega)
      rw [hval, hfc] at h1
      have h2 : (ns.map f)[0]'(by omega) = f (ns[0]'(by omega)) := by simp
      rw [h2] at h1
      exact absurd h1 (not_lt.2 (hpos _))
    have hpw : ns.Pairwise (· < ·) := by
      rw [hns]; exact List.Pairwise.filter _ List.pairwise_lt_range
    have hlen : ns.length = 1 := by
      by_contra hl
      have h1 : 1 < ns.length := by omega
      have h2 := List.pairwise_iff_getElem.1 hpw 0 1 (by omega) h1 (by omega)
      have h3 : ns[1] < n := (mem_notSelected.1 (show ns[1] ∈ notSelected n sel from List.getElem_mem h1)).1
      have h4 : ns[0]'(by omega) = c := by simp [hc, hk0]
      omega
    -- so the others are all selected, besides `-1`
    have hall : ∀ i < n - 1, (i : Int) ∈ sel := by
      intro i hi
      by_contra hcon
      have hi' : i ∈ ns := hns ▸ mem_notSelected.2 ⟨by omega, hcon⟩
      obtain ⟨j, hj, hji⟩ := List.getElem_of_mem hi'
      have : j = k := by omega
      subst this
      rw [← hc] at hji; omega
    have hsub : ((-1 : Int) :: (List.range (n - 1)).map (fun i : Nat => (i : Int))) ⊆ sel := by
      intro x hx
      rcases List.mem_cons.1 hx with rfl | hx
      · exact hs1 ▸ hs
      · obtain ⟨i, hi, rfl⟩ := List.mem_map.1 hx
        exact hall i (List.mem_range.1 hi)
    have hnd : ((-1 : Int) :: (List.range (n - 1)).map (fun i : Nat => (i : Int))).Nodup := by
      refine List.nodup_cons.2 ⟨?_, List.Nodup.map (fun a b h => by exact_mod_cast h) List.nodup_range⟩
      intro hx
      obtain ⟨i, _, hi⟩ := List.mem_map.1 hx
      omega
    have := (hnd.subperm hsub).length_le
    simp at this; omega
  have hstep : takeStep D n sel = .ok (sel ++ [(c : Int)]) := by
    unfold takeStep
    rw [if_neg hne]
    have : (notSelected n sel).getD (npArgmax ((notSelected n sel).map fun i =>
        npMin (sel.map fun s => D i (pyIdx n s)))) 0 = c := by
      change ns.getD k 0 = c
      rw [List_getD_eq_getElem _ _ hk']
    rw [this]
  refine ⟨sel ++ [(c : Int)], hstep, ?_, by simp⟩
  have hmapa : (sel ++ [(c : Int)]).map (pyIdx n) = sel.map (pyIdx n) ++ [c] := by
    simp [pyIdx_natCast]
  refine ⟨by simp, ?_, ?_, ?_, ?_⟩
  · intro x hx
    rcases List.mem_append.1 hx with hx | hx
    · exact h.ge x hx
    · rw [List.mem_singleton.1 hx]; omega
  · intro x hx
    rw [List.tail_append_of_ne_nil h.ne] at hx
    rcases List.mem_append.1 hx with hx | hx
    · exact h.head x hx
    · rw [List.mem_singleton.1 hx]; omega
  · rw [hmapa]
    refine List.nodup_append.2 ⟨h.nodup, by simp, ?_⟩
    intro a ha b hb
    rw [List.mem_singleton.1 hb]
    rintro rfl
    exact hnew ha
  · intro q hq0 hq i hi
    have hgl : ∀ a < sel.length, ((sel ++ [(c : Int)]).map (pyIdx n)).getD a 0 =
        (sel.map (pyIdx n)).getD a 0 := by
      intro a ha
      rw [hmapa, List.getD_eq_getElem?_getD, List.getElem?_append_left (by simpa using ha),
        List.getD_eq_getElem?_getD]
    by_cases hql : q < sel.length
    · obtain ⟨a, ha, hb⟩ := h.far q hq0 hql i hi
      refine ⟨a, ha, fun b hbq => ?_⟩
      rw [hgl a (by omega), hgl q hql, hgl b (by omega)]
      exact hb b hbq
    · have hqe : q = sel.length := by simp at hq; omega
      subst hqe
      have hgq : ((sel ++ [(c : Int)]).map (pyIdx n)).getD sel.length 0 = c := by
        rw [hmapa, List.getD_eq_getElem?_getD, List.getElem?_append_right (by simp)]; simp
      obtain ⟨s, hs, hsv⟩ := List.mem_map.1 (npMin_mem (hselne i))
      obtain ⟨a, ha, hsa⟩ := List.getElem_of_mem hs
      refine ⟨a, ha, fun b hb => ?_⟩
      rw [hgl a ha, hgl b hb, hgq]
      have h1 : D i ((sel.map (pyIdx n)).getD a 0) = f i := by
        rw [List_getD_eq_getElem _ _ (by simpa using ha), List.getElem_map, hsa]; exact hsv
      rw [h1]
      refine (hbest i hi).trans (npMin_le (List.mem_map.2 ⟨sel[b], List.getElem_mem _, ?_⟩))
      rw [List_getD_eq_getElem _ _ (by simpa using hb), List.getElem_map]

theorem sampleLoop {D : Nat → Nat → K} {n : Nat} (hn : 0 < n)
    (hD0 : ∀ i, D i i = 0) (hDn : ∀ i j, 0 ≤ D i j) :
    ∀ (L : List Nat) (sel : List Int), SampleInv D n sel → sel.length + L.length ≤ n →
      ∃ sel', L.foldlM (fun sel _ => takeStep D n sel) sel = .ok sel' ∧ SampleInv D n sel' ∧
        sel'.length = sel.length + L.length := by
  intro L
  induction L with
  | nil => intro sel h _; exact ⟨sel, rfl, h, rfl⟩
  | cons x L ih =>
      intro sel h hl
      obtain ⟨s1, e1, h1, l1⟩ := takeStep_inv hn hD0 hDn h (by simp at hl; omega)
      obtain ⟨s2, e2, h2, l2⟩ := ih s1 h1 (by simp at hl; omega)
      refine ⟨s2, ?_, h2, by simp; omega⟩
      rw [List.foldlM_cons, e1]; exact e2

end Permaviss
