import Verif.Spec.Chains
import Verif.Lemmas.Flag
import Verif.Lemmas.Vec
import Verif.Lemmas.ExceptM

/-! Rows of local chains. -/

namespace Permaviss

/-- The row stored at the position of `g`. -/
def rowOf (ref : List Nat) (rows : List (List Int)) (g : Nat) : List Int := rows.getD (ref.idxOf g) []

theorem rowOf_cons_self (g : Nat) (ref : List Nat) (r : List Int) (rows : List (List Int)) :
    rowOf (g :: ref) (r :: rows) g = r := by simp [rowOf]

theorem rowOf_cons_ne {g c : Nat} (h : c ≠ g) (ref : List Nat) (r : List Int)
    (rows : List (List Int)) : rowOf (c :: ref) (r :: rows) g = rowOf ref rows g := by
  simp [rowOf, List.idxOf_cons_ne ref h]

theorem scatterRows_length (aref : List Nat) : ∀ (cs : List Nat) (rows as : List (List Int)),
    (scatterRows aref cs rows as).length = rows.length
  | [], rows, as => by simp [scatterRows]
  | c :: cs, [], as => by simp [scatterRows]
  | c :: cs, r :: rows, as => by
    unfold scatterRows
    split
    · cases as with
      | nil => simp [scatterRows_length aref cs rows []]
      | cons a as => simp [scatterRows_length aref cs rows as]
    · simp [scatterRows_length aref cs rows as]

theorem scatterRows_rowOf (aref : List Nat) {g : Nat} :
    ∀ (cs : List Nat) (rows as : List (List Int)), cs.Nodup → rows.length = cs.length →
      as.length = (cs.filter fun c => decide (c ∈ aref)).length → g ∈ cs →
      rowOf cs (scatterRows aref cs rows as) g =
        if g ∈ aref then addRow (rowOf cs rows g) (rowOf (cs.filter fun c => decide (c ∈ aref)) as g)
        else rowOf cs rows g
  | [], _, _, _, _, _, hg => by simp at hg
  | c :: cs, [], _, _, hl, _, _ => by simp at hl
  | c :: cs, r :: rows, as, hn, hl, ha, hg => by
    rw [List.nodup_cons] at hn
    have hl' : rows.length = cs.length := by simpa using hl
    by_cases hc : c ∈ aref
    · cases as with
      | nil => simp [hc] at ha
      | cons a as =>
        have ha' : as.length = (cs.filter fun c => decide (c ∈ aref)).length := by
          simpa [hc] using ha
        have hf : (c :: cs).filter (fun c => decide (c ∈ aref)) =
            c :: cs.filter fun c => decide (c ∈ aref) := by simp [hc]
        have hs : scatterRows aref (c :: cs) (r :: rows) (a :: as) =
            addRow r a :: scatterRows aref cs rows as := by
          conv_lhs => unfold scatterRows
          simp [hc]
        rw [hs, hf]
        rcases eq_or_ne c g with rfl | hne
        · simp only [rowOf_cons_self, hc, if_true]
        · rw [rowOf_cons_ne hne, rowOf_cons_ne hne, rowOf_cons_ne hne]
          exact scatterRows_rowOf aref cs rows as hn.2 hl' ha'
            ((List.mem_cons.1 hg).resolve_left (fun h => hne h.symm))
    · have ha' : as.length = (cs.filter fun c => decide (c ∈ aref)).length := by
        simpa [hc] using ha
      have hf : (c :: cs).filter (fun c => decide (c ∈ aref)) =
          cs.filter fun c => decide (c ∈ aref) := by simp [hc]
      have hs : scatterRows aref (c :: cs) (r :: rows) as = r :: scatterRows aref cs rows as := by
        conv_lhs => unfold scatterRows
        simp [hc]
      rw [hs, hf]
      rcases eq_or_ne c g with rfl | hne
      · simp only [rowOf_cons_self, hc, if_false]
      · rw [rowOf_cons_ne hne, rowOf_cons_ne hne]
        exact scatterRows_rowOf aref cs rows as hn.2 hl' ha'
          ((List.mem_cons.1 hg).resolve_left (fun h => hne h.symm))

theorem filter_union_eq {a u : List Nat} (ha : a.Pairwise (· < ·)) (hu : u.Pairwise (· < ·))
    (h : ∀ x ∈ a, x ∈ u) : (u.filter fun c => decide (c ∈ a)) = a := by
  apply List.Perm.eq_of_pairwise (le := (· < ·))
  · intro x y _ _ h1 h2; exact absurd (h1.trans h2) (lt_irrefl _)
  · exact hu.filter _
  · exact ha
  · rw [List.perm_ext_iff_of_nodup ((hu.filter _).imp (fun h => h.ne)) (ha.imp (fun h => h.ne))]
    intro x
    simp only [List.mem_filter, decide_eq_true_eq]
    exact ⟨fun h => h.2, fun hx => ⟨h x hx, hx⟩⟩

theorem addRow_length (a b : List Int) : (addRow a b).length = min a.length b.length := by
  simp [addRow]

theorem addRow_getD {a b : List Int} (h : a.length = b.length) (j : Nat) :
    (addRow a b).getD j 0 = a.getD j 0 + b.getD j 0 := by
  rcases lt_or_ge j a.length with hj | hj
  · rw [List_getD_eq_getElem _ _ (by rw [addRow_length]; omega),
      List_getD_eq_getElem _ _ hj, List_getD_eq_getElem _ _ (h ▸ hj)]
    simp [addRow]
  · rw [getD_eq_zero_of_le _ (by rw [addRow_length]; omega), getD_eq_zero_of_le _ hj,
      getD_eq_zero_of_le _ (h ▸ hj)]
    rfl

theorem rowOf_mem {ref : List Nat} {rows : List (List Int)} {g : Nat} (h : ref.length = rows.length)
    (hg : g ∈ ref) : rowOf ref rows g ∈ rows := by
  unfold rowOf
  rw [List_getD_eq_getElem _ _ (h ▸ List.idxOf_lt_length_of_mem hg)]
  exact List.getElem_mem _

theorem rowOf_replicate {ref : List Nat} {n : Nat} {r : List Int} {g : Nat} (h : ref.length = n)
    (hg : g ∈ ref) : rowOf ref (List.replicate n r) g = r := by
  have := rowOf_mem (rows := List.replicate n r) (by simpa using h) hg
  exact List.eq_of_mem_replicate this

theorem LEntry.row_eq {e : LEntry} {g : Nat} (h : g ∈ e.ref) : e.row g = rowOf e.ref e.coord g := by
  simp [LEntry.row, h, rowOf]

theorem LEntry.row_neg {e : LEntry} {g : Nat} (h : g ∉ e.ref) : e.row g = [] := by
  simp [LEntry.row, h]

theorem LEntry.val_neg {e : LEntry} {g : Nat} (h : g ∉ e.ref) (j : Nat) : e.val g j = 0 := by
  simp [LEntry.val, LEntry.row_neg h]

/-- Every row of the list has a reference: rows are `rowOf` of some reference. -/
theorem exists_rowOf {ref : List Nat} {rows : List (List Int)} (hn : ref.Nodup)
    (h : ref.length = rows.length) {r : List Int} (hr : r ∈ rows) :
    ∃ g ∈ ref, rowOf ref rows g = r := by
  obtain ⟨i, hi, rfl⟩ := List.getElem_of_mem hr
  refine ⟨ref[i]'(h ▸ hi), List.getElem_mem _, ?_⟩
  unfold rowOf
  rw [hn.idxOf_getElem, List_getD_eq_getElem _ _ hi]

theorem npUnique_of_strict {l : List Nat} (h : l.Pairwise (· < ·)) : npUnique l = l := by
  apply List.Perm.eq_of_pairwise (le := (· < ·))
  · intro x y _ _ h1 h2; exact absurd (h1.trans h2) (lt_irrefl _)
  · exact npUnique_strict l
  · exact h
  · rw [List.perm_ext_iff_of_nodup (npUnique_nodup l) (h.imp (fun h => h.ne))]
    intro x; exact mem_npUnique

/-- Adding rows by reference. -/
theorem LEntry.add_spec {w : Nat} {A B : LEntry} (hA : A.WF w) (hB : B.WF w) :
    ∃ C, A.add B = .ok C ∧ C.WF w ∧ C.ref = npUnique (A.ref ++ B.ref) ∧
      ∀ g j, C.val g j = A.val g j + B.val g j := by
  unfold LEntry.add
  by_cases h0 : 0 < min A.ref.length B.ref.length
  · set U := npUnique (A.ref ++ B.ref) with hU
    have hUs : U.Pairwise (· < ·) := npUnique_strict _
    have hUn : U.Nodup := npUnique_nodup _
    have hfA : (U.filter fun c => decide (c ∈ A.ref)) = A.ref :=
      filter_union_eq hA.increasing hUs (fun x hx => mem_npUnique.2 (List.mem_append_left _ hx))
    have hfB : (U.filter fun c => decide (c ∈ B.ref)) = B.ref :=
      filter_union_eq hB.increasing hUs (fun x hx => mem_npUnique.2 (List.mem_append_right _ hx))
    have hsA : scatterOk A.ref U A.coord = true := by
      unfold scatterOk; rw [hfA]; simpa using hA.rows
    have hsB : scatterOk B.ref U B.coord = true := by
      unfold scatterOk; rw [hfB]; simpa using hB.rows
    have hw : (A.coord.headD []).length = w := by
      cases hc : A.coord with
      | nil => have := hA.rows; rw [hc] at this; simp at this; rw [this] at h0; simp at h0
      | cons r l => exact hA.width r (by rw [hc]; simp)
    rw [if_pos h0, hsA, hsB, Bool.and_self, if_pos rfl, hw]
    set S1 := scatterRows A.ref U (List.replicate U.length (List.replicate w 0)) A.coord with hS1
    have hS1l : S1.length = U.length := by rw [hS1, scatterRows_length]; simp
    have row1 : ∀ g ∈ U, rowOf U S1 g = if g ∈ A.ref then
        addRow (List.replicate w 0) (rowOf A.ref A.coord g) else List.replicate w 0 := by
      intro g hg
      rw [hS1, scatterRows_rowOf A.ref U _ _ hUn (by simp) (by rw [hfA, hA.rows]) hg, hfA,
        rowOf_replicate rfl hg]
    have row2 : ∀ g ∈ U, rowOf U (scatterRows B.ref U S1 B.coord) g = if g ∈ B.ref then
        addRow (rowOf U S1 g) (rowOf B.ref B.coord g) else rowOf U S1 g := by
      intro g hg
      rw [scatterRows_rowOf B.ref U _ _ hUn hS1l (by rw [hfB, hB.rows]) hg, hfB]
    have l1 : ∀ g ∈ U, (rowOf U S1 g).length = w := by
      intro g hg
      rw [row1 g hg]
      split
      · next h =>
        rw [addRow_length, hA.width _ (rowOf_mem hA.rows h)]; simp
      · simp
    have l2 : ∀ g ∈ U, (rowOf U (scatterRows B.ref U S1 B.coord) g).length = w := by
      intro g hg
      rw [row2 g hg]
      split
      · next h =>
        rw [addRow_length, hB.width _ (rowOf_mem hB.rows h), l1 g hg]; simp
      · exact l1 g hg
    refine ⟨_, rfl, ⟨hUs, ?_, ?_⟩, rfl, ?_⟩
    · simp [scatterRows_length, hS1l]
    · intro r hr
      obtain ⟨g, hg, rfl⟩ := exists_rowOf hUn
        (by rw [scatterRows_length, hS1l] : U.length = (scatterRows B.ref U S1 B.coord).length) hr
      exact l2 g hg
    · intro g j
      by_cases hg : g ∈ U
      · have e1 : (rowOf U S1 g).getD j 0 = A.val g j := by
          rw [row1 g hg]
          split
          · next h =>
            rw [addRow_getD (by rw [hA.width _ (rowOf_mem hA.rows h)]; simp)]
            rw [LEntry.val, LEntry.row_eq h]
            have : (List.replicate w (0 : Int)).getD j 0 = 0 := by
              simp [List.getD_eq_getElem?_getD, List.getElem?_replicate]
              split <;> rfl
            rw [this, zero_add]
          · next h =>
            rw [LEntry.val_neg h]
            simp [List.getD_eq_getElem?_getD, List.getElem?_replicate]
            split <;> rfl
        have hrow : (⟨U, scatterRows B.ref U S1 B.coord⟩ : LEntry).row g =
            rowOf U (scatterRows B.ref U S1 B.coord) g := LEntry.row_eq hg
        rw [LEntry.val, hrow, row2 g hg]
        split
        · next h =>
          rw [addRow_getD (by rw [hB.width _ (rowOf_mem hB.rows h), l1 g hg]), e1]
          rw [LEntry.val, LEntry.val, LEntry.row_eq h]
        · next h => rw [e1, LEntry.val_neg h, add_zero]
      · have hga : g ∉ A.ref := fun h => hg (mem_npUnique.2 (List.mem_append_left _ h))
        have hgb : g ∉ B.ref := fun h => hg (mem_npUnique.2 (List.mem_append_right _ h))
        rw [LEntry.val_neg hga, LEntry.val_neg hgb, LEntry.val_neg hg]; rfl
  · rw [if_neg h0]
    have h0' : A.ref = [] ∨ B.ref = [] := by
      by_contra hcon
      push Not at hcon
      exact h0 (lt_min (List.length_pos_of_ne_nil hcon.1) (List.length_pos_of_ne_nil hcon.2))
    by_cases hA0 : A.ref = []
    · have hAc : A.coord = [] := List.length_eq_zero_iff.1 (by rw [← hA.rows, hA0]; rfl)
      rw [if_neg (by simp [hA0])]
      have hu : npUnique (A.ref ++ B.ref) = B.ref := by
        rw [hA0, List.nil_append]; exact npUnique_of_strict hB.increasing
      have hval : ∀ g j, (⟨B.ref, B.coord⟩ : LEntry).val g j = A.val g j + B.val g j := by
        intro g j
        rw [LEntry.val_neg (e := A) (by simp [hA0]), zero_add]
      rw [hu]
      split
      · refine ⟨⟨B.ref, B.coord⟩, by simp [LEntry.mk?, hB.rows], hB, rfl, hval⟩
      · next h =>
        have hBc : B.coord = [] := by
          rcases List.eq_nil_or_concat B.coord with h' | ⟨_, _, h'⟩
          · exact h'
          · exact absurd (by rw [h']; simp) h
        refine ⟨⟨B.ref, B.coord⟩, ?_, hB, rfl, hval⟩
        have := hB.rows
        rw [hBc] at this
        simp [LEntry.mk?, this, hBc]
    · have hB0 : B.ref = [] := h0'.resolve_left hA0
      rw [if_pos (List.length_pos_of_ne_nil hA0)]
      have hu : npUnique (A.ref ++ B.ref) = A.ref := by
        rw [hB0, List.append_nil]; exact npUnique_of_strict hA.increasing
      rw [hu]
      refine ⟨⟨A.ref, A.coord⟩, by simp [LEntry.mk?, hA.rows], hA, rfl, ?_⟩
      intro g j
      rw [LEntry.val_neg (e := B) (by simp [hB0]), add_zero]

theorem combine_spec {n : Nat} : ∀ (cs : List Int) (rows : List (List Int)) (acc : List Int),
    acc.length = n → (∀ r ∈ rows, r.length = n) →
    ((List.zipWith scale cs rows).foldl addRow acc).length = n ∧
    ∀ j, ((List.zipWith scale cs rows).foldl addRow acc).getD j 0 =
      acc.getD j 0 + (List.zipWith (fun c (r : List Int) => c * r.getD j 0) cs rows).sum
  | [], rows, acc, ha, hr => by simp [ha]
  | c :: cs, [], acc, ha, hr => by simp [ha]
  | c :: cs, r :: rows, acc, ha, hr => by
    have hr0 : (scale c r).length = n := by rw [length_scale]; exact hr r (by simp)
    have hl : (addRow acc (scale c r)).length = n := by rw [addRow_length, ha, hr0]; simp
    obtain ⟨h1, h2⟩ := combine_spec cs rows (addRow acc (scale c r)) hl
      (fun x hx => hr x (List.mem_cons_of_mem _ hx))
    refine ⟨by simpa using h1, fun j => ?_⟩
    have : (scale c r).getD j 0 = c * r.getD j 0 := by
      unfold scale
      rcases lt_or_ge j r.length with hj | hj
      · simp [List.getD_eq_getElem?_getD, hj]
      · rw [getD_eq_zero_of_le _ (by simpa using hj), getD_eq_zero_of_le _ hj]; simp
    simp only [List.zipWith_cons_cons, List.foldl_cons, List.sum_cons]
    rw [h2 j, addRow_getD (by rw [ha, hr0]), this, add_assoc]

theorem combine_length {n : Nat} {cs : List Int} {rows : List (List Int)}
    (hr : ∀ r ∈ rows, r.length = n) : (combine n cs rows).length = n :=
  (combine_spec cs rows (List.replicate n 0) (by simp) hr).1

theorem replicate_zero_getD (n j : Nat) : (List.replicate n (0 : Int)).getD j 0 = 0 := by
  simp only [List.getD_eq_getElem?_getD, List.getElem?_replicate]
  split <;> rfl

theorem combine_getD {n : Nat} {cs : List Int} {rows : List (List Int)}
    (hr : ∀ r ∈ rows, r.length = n) (j : Nat) : (combine n cs rows).getD j 0 =
      (List.zipWith (fun c (r : List Int) => c * r.getD j 0) cs rows).sum := by
  have := (combine_spec cs rows (List.replicate n 0) (by simp) hr).2 j
  rw [replicate_zero_getD, zero_add] at this
  exact this

theorem zipWith_rowOf {γ : Type*} (f : Nat → Int) (F : Int → List Int → γ) :
    ∀ (ref : List Nat) (rows : List (List Int)), ref.Nodup → ref.length = rows.length →
      List.zipWith F (ref.map f) rows = ref.map fun g => F (f g) (rowOf ref rows g)
  | [], rows, _, _ => by simp
  | g :: ref, [], _, h => by simp at h
  | g :: ref, r :: rows, hn, h => by
    rw [List.nodup_cons] at hn
    simp only [List.map_cons, List.zipWith_cons_cons, rowOf_cons_self]
    rw [zipWith_rowOf f F ref rows hn.2 (by simpa using h)]
    congr 1
    apply List.map_congr_left
    intro x hx
    rw [rowOf_cons_ne (by rintro rfl; exact hn.1 hx)]

theorem sum_map_eq_range {ref : List Nat} (hn : ref.Nodup) {n : Nat} (hlt : ∀ g ∈ ref, g < n)
    (F G : Nat → Int) (h1 : ∀ g ∈ ref, F g = G g) (h0 : ∀ g, g ∉ ref → G g = 0) :
    (ref.map F).sum = ∑ g ∈ Finset.range n, G g := by
  rw [List.map_congr_left h1, ← List.sum_toFinset G hn]
  apply Finset.sum_subset
  · intro g hg
    exact Finset.mem_range.2 (hlt g (List.mem_toFinset.1 hg))
  · intro g _ hg
    exact h0 g (fun h => hg (List.mem_toFinset.2 h))

theorem LEntry.sums_spec {w nexp : Nat} {e : LEntry} (he : e.WF w) (hlt : ∀ g ∈ e.ref, g < nexp)
    (M : List (List Int)) :
    ∃ C, e.sums M nexp = .ok C ∧ C.WF w ∧
      ∀ i < M.length, ∀ j, C.val i j = ∑ g ∈ Finset.range nexp, (M.getD i []).getD g 0 * e.val g j := by
  unfold LEntry.sums
  by_cases h0 : e.ref.length = 0
  · have href : e.ref = [] := List.length_eq_zero_iff.1 h0
    rw [if_pos h0]
    refine ⟨LEntry.empty, rfl, ⟨List.Pairwise.nil, rfl, by simp [LEntry.empty]⟩, fun i _ j => ?_⟩
    rw [LEntry.val_neg (by simp [LEntry.empty])]
    symm
    apply Finset.sum_eq_zero
    intro g _
    rw [LEntry.val_neg (by simp [href]), mul_zero]
  · have hall : (e.ref.all fun i => decide (i < nexp)) = true := by
      simp only [List.all_eq_true, decide_eq_true_eq]; exact hlt
    have hw : (e.coord.headD []).length = w := by
      cases hc : e.coord with
      | nil => exact absurd (by rw [he.rows, hc]; rfl) h0
      | cons r l => exact he.width r (by rw [hc]; simp)
    rw [if_neg h0, if_pos hall, hw]
    refine ⟨_, rfl, ⟨List.pairwise_lt_range, by simp, ?_⟩, fun i hi j => ?_⟩
    · intro r hr
      simp only [List.mem_map] at hr
      obtain ⟨s, _, rfl⟩ := hr
      exact combine_length he.width
    · have hmem : i ∈ List.range M.length := List.mem_range.2 hi
      rw [LEntry.val, LEntry.row_eq hmem]
      have hrow : rowOf (List.range M.length) (M.map fun s =>
          combine w (e.ref.map fun i => s.getD i 0) e.coord) i =
          combine w (e.ref.map fun k => (M.getD i []).getD k 0) e.coord := by
        unfold rowOf
        have : (List.range M.length).idxOf i = i := by
          have := List.nodup_range.idxOf_getElem (xs := List.range M.length) i (by simpa using hi)
          simpa using this
        rw [this, List_getD_eq_getElem _ _ (by simpa using hi), List_getD_eq_getElem M _ hi]
        simp
      rw [hrow, combine_getD he.width]
      have hn : e.ref.Nodup := he.increasing.imp (fun h => h.ne)
      rw [zipWith_rowOf (fun k => (M.getD i []).getD k 0) (fun c (r : List Int) => c * r.getD j 0) _ _ hn
        he.rows]
      apply sum_map_eq_range hn hlt
      · intro g hg
        rw [LEntry.val, LEntry.row_eq hg]
      · intro g hg
        rw [LEntry.val_neg hg, mul_zero]

theorem negMod_getD (p : Nat) (v : List Int) (j : Nat) :
    (negMod p v).getD j 0 = (-(v.getD j 0)) % (p : Int) := by
  unfold negMod
  rcases lt_or_ge j v.length with hj | hj
  · simp [List.getD_eq_getElem?_getD, hj]
  · rw [getD_eq_zero_of_le _ (by simpa using hj), getD_eq_zero_of_le _ hj]; simp

end Permaviss
