import Verif.Lemmas.Broken

/-!
# Extension problems with any number of levels: what the loop computes when it returns
-/

attribute [-instance] instMulZeroClassOfSemiring

namespace Permaviss

open Finset

variable {α : Type} [LinearOrder α]

/-- The bars ending at `r`. -/
noncomputable def dieAt (bars : List (α × α)) (r : α) : Finset ℕ := by
  classical
  exact (range bars.length).filter fun i => ∃ b, bars[i]? = some b ∧ b.2 = r

theorem mem_dieAt {bars : List (α × α)} {r : α} {i : ℕ} :
    i ∈ dieAt bars r ↔ ∃ b, bars[i]? = some b ∧ b.2 = r := by
  classical
  unfold dieAt
  rw [Finset.mem_filter, mem_range]
  refine ⟨fun h => h.2, fun h => ⟨?_, h⟩⟩
  obtain ⟨b, hb, -⟩ := h
  exact (List.getElem?_eq_some_iff.1 hb).1

open Classical in
/-- Where generator `j` has gone by the time described by `P`, moving it at each radius of `L`. -/
noncomputable def mtr (p : ℕ) (BD : Mat) (bars : List (α × α)) (L : List α) (P : α → Prop) (j : ℕ) :
    ℕ → ZMod p :=
  (L.filter fun r => decide (P r)).foldl (fun v r => brkUpd p BD (dieAt bars r) v) (Pi.single j 1)

theorem filter_le_split {L : List α} {rad : α} (hL : L.Pairwise (· < ·)) {f g : α → Bool}
    (hf : ∀ x, f x = true ↔ x < rad) (hg : ∀ x, g x = true ↔ x ≤ rad) :
    L.filter g = L.filter f ++ (if rad ∈ L then [rad] else []) := by
  induction L with
  | nil => simp
  | cons x l ih =>
    rw [List.pairwise_cons] at hL
    rcases lt_trichotomy x rad with h | h | h
    · rw [List.filter_cons_of_pos ((hg x).2 h.le), List.filter_cons_of_pos ((hf x).2 h), ih hL.2]
      have : rad ≠ x := fun e => absurd h (e ▸ lt_irrefl _)
      simp [this]
    · subst h
      have h1 : l.filter g = [] := by
        rw [List.filter_eq_nil_iff]
        intro y hy hgy
        exact absurd ((hg y).1 hgy) (not_le.2 (hL.1 y hy))
      have h2 : l.filter f = [] := by
        rw [List.filter_eq_nil_iff]
        intro y hy hgy
        exact absurd ((hf y).1 hgy) (not_lt.2 (hL.1 y hy).le)
      rw [List.filter_cons_of_pos ((hg x).2 le_rfl),
        List.filter_cons_of_neg (fun hc => lt_irrefl _ ((hf x).1 hc)), h1, h2]
      simp
    · have h1 : (x :: l).filter g = [] := by
        rw [List.filter_eq_nil_iff]
        intro y hy hgy
        have hy' : rad < y := by
          rcases List.mem_cons.1 hy with rfl | hy
          · exact h
          · exact h.trans (hL.1 y hy)
        exact absurd ((hg y).1 hgy) (not_le.2 hy')
      have h2 : (x :: l).filter f = [] := by
        rw [List.filter_eq_nil_iff]
        intro y hy hgy
        have hy' : rad < y := by
          rcases List.mem_cons.1 hy with rfl | hy
          · exact h
          · exact h.trans (hL.1 y hy)
        exact absurd ((hf y).1 hgy) (not_lt.2 hy'.le)
      have h3 : rad ∉ x :: l := by
        intro hy
        rcases List.mem_cons.1 hy with rfl | hy
        · exact lt_irrefl _ h
        · exact lt_asymm h (hL.1 _ hy)
      rw [h1, h2, if_neg h3]; rfl

theorem brkUpd_empty {p : ℕ} {BD : Mat} (v : ℕ → ZMod p) : brkUpd p BD ∅ v = v := by
  funext i
  rw [brkUpd_apply]; simp

/-- What the list of radii has to satisfy. -/
structure EndsOK (bars : List (α × α)) (L : List α) : Prop where
  sorted : L.Pairwise (· < ·)
  mem : ∀ x, x ∈ L ↔ ∃ b ∈ bars, b.2 = x

theorem mtr_step {p : ℕ} {BD : Mat} {bars : List (α × α)} {L : List α} (hL : EndsOK bars L) (rad : α)
    (j : ℕ) : brkUpd p BD (dieAt bars rad) (mtr p BD bars L (· < rad) j) =
      mtr p BD bars L (· ≤ rad) j := by
  classical
  unfold mtr
  rw [filter_le_split hL.sorted (rad := rad) (f := fun r => @decide ((fun x => x < rad) r) (Classical.propDecidable _))
    (g := fun r => @decide ((fun x => x ≤ rad) r) (Classical.propDecidable _)) (fun _ => by simp)
    (fun _ => by simp)]
  by_cases h : rad ∈ L
  · rw [if_pos h, List.foldl_append]; rfl
  · rw [if_neg h, List.append_nil]
    have : dieAt bars rad = ∅ := by
      rw [Finset.eq_empty_iff_forall_notMem]
      intro i hi
      obtain ⟨b, h1, h2⟩ := mem_dieAt.1 hi
      exact h ((hL.mem rad).2 ⟨b, List.mem_of_getElem? h1, h2⟩)
    rw [this, brkUpd_empty]

theorem mtr_single {p : ℕ} {BD : Mat} {bars : List (α × α)} {L : List α} {P : α → Prop} {j : ℕ}
    {b : α × α} (hb : bars[j]? = some b) (h : ¬ P b.2) : mtr p BD bars L P j = Pi.single j 1 := by
  classical
  unfold mtr
  have key : ∀ l : List α, (∀ r ∈ l, r ≠ b.2) →
      l.foldl (fun v r => brkUpd p BD (dieAt bars r) v) (Pi.single j 1) = Pi.single j 1 := by
    intro l
    induction l with
    | nil => intro _; rfl
    | cons r l ih =>
      intro hl
      rw [List.foldl_cons, brkUpd_single_not, ih fun r hr => hl r (by simp [hr])]
      intro hj
      obtain ⟨b', h1, h2⟩ := mem_dieAt.1 hj
      rw [hb, Option.some.injEq] at h1
      subst h1
      exact hl r (by simp) h2.symm
  refine key _ fun r hr e => ?_
  rw [List.mem_filter] at hr
  exact h (e ▸ by simpa using hr.2)

theorem mtr_congr {p : ℕ} {BD : Mat} {bars : List (α × α)} {L : List α} (hL : EndsOK bars L)
    {P P' : α → Prop} (h : ∀ b ∈ bars, (P b.2 ↔ P' b.2)) (j : ℕ) :
    mtr p BD bars L P j = mtr p BD bars L P' j := by
  classical
  unfold mtr
  congr 1
  refine List.filter_congr fun x hx => ?_
  obtain ⟨b, hb, rfl⟩ := (hL.mem x).1 hx
  simp [h b hb]

theorem mtr_supp {p : ℕ} {BD : Mat} {bars : List (α × α)} {L : List α} (hL : EndsOK bars L)
    (hin : ∀ i j, BD.z p i j ≠ 0 → i < bars.length)
    (life : ∀ i j bi bj, bars[i]? = some bi → bars[j]? = some bj → BD.z p i j ≠ 0 →
      bi.1 ≤ bj.2 ∧ bj.2 < bi.2) {t : α} {j : ℕ} {b : α × α} (hb : bars[j]? = some b)
    (hbt : b.1 ≤ t) {i : ℕ} (hi : mtr p BD bars L (· ≤ t) j i ≠ 0) : AliveBar bars i t := by
  classical
  have key : ∀ (l : List α) (done : α → Prop) (v : ℕ → ZMod p), l.Pairwise (· < ·) →
      (∀ x, done x → ∀ r ∈ l, x < r) → (∀ r ∈ l, r ≤ t) →
      (∀ i, v i ≠ 0 → ∃ b, bars[i]? = some b ∧ b.1 ≤ t ∧ ¬ done b.2) →
      ∀ i, l.foldl (fun v r => brkUpd p BD (dieAt bars r) v) v i ≠ 0 →
        ∃ b, bars[i]? = some b ∧ b.1 ≤ t ∧ ¬ (done b.2 ∨ b.2 ∈ l) := by
    intro l
    induction l with
    | nil =>
      intro done v _ _ _ hv i hi
      obtain ⟨b, h1, h2, h3⟩ := hv i hi
      exact ⟨b, h1, h2, by simpa using h3⟩
    | cons r l ih =>
      intro done v hs hd ht hv i hi
      rw [List.pairwise_cons] at hs
      obtain ⟨b, h1, h2, h3⟩ := ih (fun x => done x ∨ x = r) (brkUpd p BD (dieAt bars r) v) hs.2
        (by
          rintro x (hx | rfl) y hy
          · exact hd x hx y (by simp [hy])
          · exact hs.1 y hy)
        (fun r hr => ht r (by simp [hr])) (by
          intro i hi
          rw [brkUpd_apply] at hi
          by_cases h0 : (if i ∈ dieAt bars r then 0 else v i) = 0
          · rw [h0, zero_add] at hi
            obtain ⟨k, hk, hne⟩ := Finset.exists_ne_zero_of_sum_ne_zero hi
            have hz := left_ne_zero_of_mul hne
            obtain ⟨bk, h1, h2⟩ := mem_dieAt.1 hk
            have hil := hin i k hz
            have hbi := List.getElem?_eq_getElem hil
            obtain ⟨h3, h4⟩ := life i k _ _ hbi h1 hz
            refine ⟨_, hbi, h3.trans (h2 ▸ ht r (by simp)), ?_⟩
            rintro (h5 | h5)
            · have := hd _ h5 r (by simp)
              rw [h2] at h4
              exact lt_asymm this h4
            · rw [h2, h5] at h4; exact lt_irrefl _ h4
          · have hnD : i ∉ dieAt bars r := fun h => h0 (if_pos h)
            rw [if_neg hnD] at h0
            obtain ⟨b, h1, h2, h3⟩ := hv i h0
            refine ⟨b, h1, h2, ?_⟩
            rintro (h5 | h5)
            · exact h3 h5
            · exact hnD (mem_dieAt.2 ⟨b, h1, h5⟩)) i hi
      refine ⟨b, h1, h2, fun h => h3 ?_⟩
      rcases h with h | h
      · exact Or.inl (Or.inl h)
      · rcases List.mem_cons.1 h with h | h
        · exact Or.inl (Or.inr h)
        · exact Or.inr h
  obtain ⟨bi, h1, h2, h3⟩ := key (L.filter fun r => decide (r ≤ t)) (fun _ => False)
    (Pi.single j 1) (hL.sorted.sublist List.filter_sublist) (fun _ h => h.elim)
    (fun r hr => by simpa using (List.mem_filter.1 hr).2) (by
      intro i hi
      have : i = j := by
        by_contra hne; exact hi (Pi.single_eq_of_ne hne _)
      subst this
      exact ⟨b, hb, hbt, fun h => h⟩) i (by
        have e : (L.filter fun r => decide (r ≤ t)) = L.filter fun r => decide ((· ≤ t) r) :=
          rfl
        unfold mtr at hi
        convert hi)
  refine ⟨bi, h1, h2, ?_⟩
  by_contra hlt
  apply h3
  refine Or.inr (List.mem_filter.2 ⟨(hL.mem _).2 ⟨bi, List.mem_of_getElem? h1, rfl⟩, ?_⟩)
  simpa using hlt

end Permaviss
