import Verif.Spec.Tree
import Mathlib.SetTheory.Cardinal.Finite
import Mathlib.Data.List.Sort
import Mathlib.Data.Fintype.Card
import Mathlib.Data.Finset.Max
import Mathlib.Algebra.Order.BigOperators.Group.List

/-!
# Shortest connecting trees
-/

namespace Permaviss

section

variable {V : Type}

/-- The relation as a setoid. -/
def joinedSetoid (T : List (V × V)) : Setoid V := Relation.EqvGen.setoid fun a b => (a, b) ∈ T

/-- The number of classes of joined points. -/
noncomputable def classes (T : List (V × V)) : ℕ := Nat.card (Quotient (joinedSetoid T))

theorem Joined.refl (T : List (V × V)) (a : V) : Joined T a a := Relation.EqvGen.refl a

theorem Joined.symm {T : List (V × V)} {a b : V} (h : Joined T a b) : Joined T b a := Relation.EqvGen.symm _ _ h

theorem Joined.trans {T : List (V × V)} {a b c : V} (h : Joined T a b) (h' : Joined T b c) : Joined T a c :=
  Relation.EqvGen.trans _ _ _ h h'

theorem Joined.edge {T : List (V × V)} {a b : V} (h : (a, b) ∈ T) : Joined T a b := Relation.EqvGen.rel _ _ h

theorem Joined.of_edges {T S : List (V × V)} (h : ∀ e ∈ T, Joined S e.1 e.2) {a b : V} (hab : Joined T a b) :
    Joined S a b := by
  induction hab with
  | rel a b hm => exact h _ hm
  | refl a => exact Joined.refl S a
  | symm a b _ ih => exact ih.symm
  | trans a b c _ _ ih1 ih2 => exact ih1.trans ih2

theorem Joined.mono {T S : List (V × V)} (h : ∀ e ∈ T, e ∈ S) {a b : V} (hab : Joined T a b) : Joined S a b :=
  hab.of_edges fun e he => Joined.edge (h e he)

/-- One more edge. -/
theorem joined_cons (e : V × V) (T : List (V × V)) (a b : V) : Joined (e :: T) a b ↔
    Joined T a b ∨ (Joined T a e.1 ∧ Joined T e.2 b) ∨ (Joined T a e.2 ∧ Joined T e.1 b) := by
  constructor
  · intro h
    induction h with
    | rel a b hm =>
      rcases List.mem_cons.1 hm with h | h
      · subst h
        exact Or.inr (Or.inl ⟨Joined.refl _ _, Joined.refl _ _⟩)
      · exact Or.inl (Joined.edge h)
    | refl a => exact Or.inl (Joined.refl _ _)
    | symm a b _ ih =>
      rcases ih with h | ⟨h1, h2⟩ | ⟨h1, h2⟩
      · exact Or.inl h.symm
      · exact Or.inr (Or.inr ⟨h2.symm, h1.symm⟩)
      · exact Or.inr (Or.inl ⟨h2.symm, h1.symm⟩)
    | trans a b c _ _ ih1 ih2 =>
      rcases ih1 with h | ⟨h1, h2⟩ | ⟨h1, h2⟩ <;> rcases ih2 with g | ⟨g1, g2⟩ | ⟨g1, g2⟩
      · exact Or.inl (h.trans g)
      · exact Or.inr (Or.inl ⟨h.trans g1, g2⟩)
      · exact Or.inr (Or.inr ⟨h.trans g1, g2⟩)
      · exact Or.inr (Or.inl ⟨h1, h2.trans g⟩)
      · exact Or.inr (Or.inl ⟨h1, g2⟩)
      · exact Or.inl (h1.trans g2)
      · exact Or.inr (Or.inr ⟨h1, h2.trans g⟩)
      · exact Or.inl (h1.trans g2)
      · exact Or.inr (Or.inr ⟨h1, g2⟩)
  · have hm : ∀ {x y}, Joined T x y → Joined (e :: T) x y := fun h => h.mono fun e he => List.mem_cons_of_mem _ he
    have he : Joined (e :: T) e.1 e.2 := Joined.edge (List.mem_cons_self ..)
    rintro (h | ⟨h1, h2⟩ | ⟨h1, h2⟩)
    · exact hm h
    · exact ((hm h1).trans he).trans (hm h2)
    · exact ((hm h1).trans he.symm).trans (hm h2)

theorem classes_congr {T S : List (V × V)} (h : ∀ a b, Joined T a b ↔ Joined S a b) : classes T = classes S := by
  have : joinedSetoid T = joinedSetoid S := Setoid.ext fun a b => h a b
  unfold classes
  rw [this]

theorem classes_nil : classes ([] : List (V × V)) = Nat.card V := by
  refine (Nat.card_congr (Equiv.ofBijective (fun a => Quotient.mk (joinedSetoid []) a) ⟨fun a b h => ?_,
    Quotient.mk_surjective⟩)).symm
  have h' : Joined [] a b := Quotient.exact h
  clear h
  induction h' with
  | rel a b hm => exact absurd hm (List.not_mem_nil)
  | refl a => rfl
  | symm a b _ ih => exact ih.symm
  | trans a b c _ _ ih1 ih2 => exact ih1.trans ih2

theorem classes_connects [Nonempty V] {T : List (V × V)} (h : Connects T) : classes T = 1 := by
  unfold classes
  rw [Nat.card_eq_one_iff_unique]
  refine ⟨⟨fun x y => ?_⟩, ⟨Quotient.mk _ (Classical.arbitrary V)⟩⟩
  induction x using Quotient.inductionOn
  induction y using Quotient.inductionOn
  exact Quotient.sound (h _ _)

variable [Finite V]

theorem classes_mono {T S : List (V × V)} (h : ∀ a b, Joined T a b → Joined S a b) : classes S ≤ classes T := by
  refine Nat.card_le_card_of_surjective (Quotient.map' id fun a b hab => h a b hab) fun x => ?_
  induction x using Quotient.inductionOn with
  | h a => exact ⟨Quotient.mk _ a, rfl⟩

theorem classes_joined {e : V × V} {T : List (V × V)} (h : Joined T e.1 e.2) : classes (e :: T) = classes T := by
  refine classes_congr fun a b => ?_
  rw [joined_cons]
  constructor
  · rintro (h' | ⟨h1, h2⟩ | ⟨h1, h2⟩)
    · exact h'
    · exact (h1.trans h).trans h2
    · exact (h1.trans h.symm).trans h2
  · exact Or.inl

/-- An edge between different classes makes one of two. -/
theorem classes_not_joined {e : V × V} {T : List (V × V)} (h : ¬ Joined T e.1 e.2) :
    classes (e :: T) + 1 = classes T := by
  classical
  have := Fintype.ofFinite V
  let q : Quotient (joinedSetoid T) := Quotient.mk _ e.2
  have hbij : Function.Bijective (fun x : {x : Quotient (joinedSetoid T) // x ≠ q} =>
      (Quotient.map' (s₂ := joinedSetoid (e :: T)) id
        (fun a b hab => Joined.mono (fun e he => List.mem_cons_of_mem _ he) hab) x.1 :
        Quotient (joinedSetoid (e :: T)))) := by
    constructor
    · rintro ⟨x, hx⟩ ⟨y, hy⟩ hxy
      apply Subtype.ext
      dsimp only at hxy ⊢
      induction x using Quotient.inductionOn with
      | h a =>
      induction y using Quotient.inductionOn with
      | h b =>
        have hab : Joined (e :: T) a b := Quotient.exact hxy
        rcases (joined_cons e T a b).1 hab with h' | ⟨h1, h2⟩ | ⟨h1, h2⟩
        · exact Quotient.sound h'
        · exact absurd (Quotient.sound h2.symm) hy
        · exact absurd (Quotient.sound h1) hx
    · intro y
      induction y using Quotient.inductionOn with
      | h b =>
        by_cases hb : Joined T b e.2
        · refine ⟨⟨Quotient.mk _ e.1, fun hc => h (Quotient.exact hc)⟩, ?_⟩
          exact Quotient.sound ((joined_cons e T _ _).2 (Or.inr (Or.inl ⟨Joined.refl _ _, hb.symm⟩)))
        · exact ⟨⟨Quotient.mk _ b, fun hc => hb (Quotient.exact hc)⟩, rfl⟩
  have h1 := Nat.card_congr (Equiv.ofBijective _ hbij)
  unfold classes
  rw [← h1]
  have h2 := Fintype.ofFinite (Quotient (joinedSetoid T))
  rw [Nat.card_eq_fintype_card, Nat.card_eq_fintype_card, Fintype.card_subtype_compl, Fintype.card_subtype_eq]
  have : 0 < Fintype.card (Quotient (joinedSetoid T)) := Fintype.card_pos_iff.2 ⟨q⟩
  omega

theorem classes_cons_le (e : V × V) (T : List (V × V)) : classes T ≤ classes (e :: T) + 1 := by
  by_cases h : Joined T e.1 e.2
  · rw [classes_joined h]; omega
  · rw [classes_not_joined h]

theorem classes_append_le (S T : List (V × V)) : classes T ≤ classes (S ++ T) + S.length := by
  induction S with
  | nil => simp
  | cons e S ih =>
    have := classes_cons_le e (S ++ T)
    rw [List.length_cons, List.cons_append]
    omega

open Classical in
/-- The edges that join what the later edges of the list do not join. -/
noncomputable def shortTree : List (V × V) → List (V × V)
  | [] => []
  | e :: r => if Joined r e.1 e.2 then shortTree r else e :: shortTree r

theorem shortTree_joined (l : List (V × V)) (a b : V) : Joined (shortTree l) a b ↔ Joined l a b := by
  induction l generalizing a b with
  | nil => rfl
  | cons e r ih =>
    unfold shortTree
    split
    · next h =>
      rw [ih, joined_cons]
      constructor
      · exact Or.inl
      · rintro (h' | ⟨h1, h2⟩ | ⟨h1, h2⟩)
        · exact h'
        · exact (h1.trans h).trans h2
        · exact (h1.trans h.symm).trans h2
    · rw [joined_cons, joined_cons, ih, ih, ih, ih, ih]

theorem shortTree_length (l : List (V × V)) : (shortTree l).length + classes l = Nat.card V := by
  induction l with
  | nil => rw [classes_nil]; unfold shortTree; simp
  | cons e r ih =>
    unfold shortTree
    split
    · next h => rw [classes_joined h]; exact ih
    · next h =>
      have := classes_not_joined h
      rw [List.length_cons]
      omega

theorem shortTree_sublist (l : List (V × V)) : (shortTree l).Sublist l := by
  induction l with
  | nil => exact List.Sublist.slnil
  | cons e r ih =>
    unfold shortTree
    split
    · exact ih.cons e
    · exact ih.cons₂ e

variable {α : Type} [LinearOrder α]

/-- In a list with the longest edges first, the short edges of the tree are the tree of the short edges. -/
theorem shortTree_filter (len : V × V → α) (t : α) {l : List (V × V)} (h : l.Pairwise fun a b => len b ≤ len a) :
    (shortTree l).filter (fun e => decide (len e ≤ t)) = shortTree (l.filter fun e => decide (len e ≤ t)) := by
  induction l with
  | nil => rfl
  | cons e r ih =>
    rw [List.pairwise_cons] at h
    by_cases he : len e ≤ t
    · have hall : ∀ x ∈ e :: r, decide (len x ≤ t) = true := by
        intro x hx
        rcases List.mem_cons.1 hx with rfl | hx
        · exact decide_eq_true he
        · exact decide_eq_true ((h.1 x hx).trans he)
      rw [List.filter_eq_self.2 hall, List.filter_eq_self.2 fun x hx => hall x ((shortTree_sublist _).subset hx)]
    · rw [List.filter_cons_of_neg (by simpa using he), ← ih h.2]
      rw [shortTree]
      split
      · rfl
      · rw [List.filter_cons_of_neg (by simpa using he)]

theorem length_filter_add (len : V × V → α) (t : α) (l : List (V × V)) :
    (l.filter fun e => decide (t < len e)).length + (l.filter fun e => decide (len e ≤ t)).length = l.length := by
  induction l with
  | nil => rfl
  | cons e r ih =>
    by_cases he : len e ≤ t
    · rw [List.filter_cons_of_neg (by simpa using he), List.filter_cons_of_pos (by simpa using he)]
      simp only [List.length_cons]; omega
    · rw [List.filter_cons_of_pos (by simpa using he), List.filter_cons_of_neg (by simpa using he)]
      simp only [List.length_cons]; omega

/-- Among the edges of a list that connects all points there is a tree, whose edges longer than `t` number one less than
the classes of the graph of short edges. -/
theorem exists_shortTree [Nonempty V] (len : V × V → α) {E : List (V × V)} (hE : Connects E) :
    ∃ T : List (V × V), Connects T ∧ (∀ e ∈ T, e ∈ E) ∧ T.length + 1 = Nat.card V ∧
      ∀ t, (T.filter fun e => decide (t < len e)).length + 1 = classes (E.filter fun e => decide (len e ≤ t)) := by
  let l := E.mergeSort fun a b => decide (len b ≤ len a)
  have hl : l.Perm E := List.mergeSort_perm ..
  have hsort : l.Pairwise fun a b => len b ≤ len a := by
    have := List.pairwise_mergeSort (le := fun a b => decide (len b ≤ len a))
      (fun a b c h1 h2 => by simp only [decide_eq_true_eq] at *; exact h2.trans h1)
      (fun a b => by simpa using le_total (len b) (len a)) E
    exact this.imp fun h => by simpa using h
  have hjoin : ∀ a b, Joined l a b ↔ Joined E a b := fun a b =>
    ⟨fun h => h.mono fun e he => hl.mem_iff.1 he, fun h => h.mono fun e he => hl.mem_iff.2 he⟩
  have hcon : Connects l := fun a b => (hjoin a b).2 (hE a b)
  have h1 := shortTree_length l
  rw [classes_connects hcon] at h1
  refine ⟨shortTree l, fun a b => (shortTree_joined l a b).2 (hcon a b),
    fun e he => hl.mem_iff.1 ((shortTree_sublist l).subset he), h1, fun t => ?_⟩
  have h2 := shortTree_length (l.filter fun e => decide (len e ≤ t))
  rw [← shortTree_filter len t hsort] at h2
  have h3 := length_filter_add len t (shortTree l)
  have h4 : classes (l.filter fun e => decide (len e ≤ t)) = classes (E.filter fun e => decide (len e ≤ t)) := by
    have hp := hl.filter fun e => decide (len e ≤ t)
    exact classes_congr fun a b => ⟨fun h => h.mono fun e he => hp.mem_iff.1 he, fun h => h.mono fun e he => hp.mem_iff.2 he⟩
  omega

/-- Edges that connect all points: at least as many are longer than `t`. -/
theorem classes_le_long [Nonempty V] (len : V × V → α) {E T : List (V × V)} (hT : Connects T) {t : α}
    (hTE : ∀ e ∈ T, len e ≤ t → Joined (E.filter fun e => decide (len e ≤ t)) e.1 e.2) :
    classes (E.filter fun e => decide (len e ≤ t)) ≤ (T.filter fun e => decide (t < len e)).length + 1 := by
  have h1 : classes (E.filter fun e => decide (len e ≤ t)) ≤ classes (T.filter fun e => decide (len e ≤ t)) := by
    refine classes_mono fun a b h => h.of_edges fun e he => ?_
    rw [List.mem_filter, decide_eq_true_eq] at he
    exact hTE e he.1 he.2
  have h2 := classes_append_le (T.filter fun e => decide (t < len e)) (T.filter fun e => decide (len e ≤ t))
  have h3 : classes ((T.filter fun e => decide (t < len e)) ++ T.filter fun e => decide (len e ≤ t)) = 1 := by
    refine classes_connects fun a b => (hT a b).mono fun e he => ?_
    rw [List.mem_append, List.mem_filter, List.mem_filter, decide_eq_true_eq, decide_eq_true_eq]
    rcases lt_or_ge t (len e) with h | h
    · exact Or.inl ⟨he, h⟩
    · exact Or.inr ⟨he, h⟩
  omega

end

/-- Lists with at most as many large entries have smaller sums. -/
theorem sum_le_of_counts {α : Type} [AddCommGroup α] [LinearOrder α] [IsOrderedAddMonoid α] (l l' : List α)
    (hl' : ∀ x ∈ l', 0 ≤ x)
    (h : ∀ t, 0 ≤ t → l.countP (fun x => decide (t < x)) ≤ l'.countP fun x => decide (t < x)) : l.sum ≤ l'.sum := by
  induction hn : l.length generalizing l l' with
  | zero =>
    rw [List.length_eq_zero_iff.1 hn, List.sum_nil]
    exact List.sum_nonneg hl'
  | succ n ih =>
    by_cases hpos : ∀ x ∈ l, x ≤ 0
    · have : ∀ l : List α, (∀ x ∈ l, x ≤ 0) → l.sum ≤ 0 := by
        intro l
        induction l with
        | nil => intro _; exact le_rfl
        | cons x l ih =>
          intro hx
          rw [List.sum_cons]
          exact add_nonpos (hx x (List.mem_cons_self ..)) (ih fun y hy => hx y (List.mem_cons_of_mem _ hy))
      exact (this l hpos).trans (List.sum_nonneg hl')
    push Not at hpos
    obtain ⟨m0, hm0, hm0'⟩ := hpos
    obtain ⟨m, hm, hmax⟩ : ∃ m ∈ l, ∀ x ∈ l, x ≤ m := by
      obtain ⟨m, h1, h2⟩ := l.toFinset.exists_max_image id ⟨m0, List.mem_toFinset.2 hm0⟩
      exact ⟨m, List.mem_toFinset.1 h1, fun x hx => h2 x (List.mem_toFinset.2 hx)⟩
    have hmpos : 0 < m := hm0'.trans_le (hmax m0 hm0)
    have hne : ∃ x, x ∈ l' := by
      have h0 := h 0 le_rfl
      have : 0 < l.countP fun x => decide (0 < x) := List.countP_pos_iff.2 ⟨m, hm, by simpa using hmpos⟩
      obtain ⟨x, hx, -⟩ := List.countP_pos_iff.1 (this.trans_le h0)
      exact ⟨x, hx⟩
    obtain ⟨x0, hx0⟩ := hne
    obtain ⟨m', hm', hmax'⟩ : ∃ m' ∈ l', ∀ x ∈ l', x ≤ m' := by
      obtain ⟨m, h1, h2⟩ := l'.toFinset.exists_max_image id ⟨x0, List.mem_toFinset.2 hx0⟩
      exact ⟨m, List.mem_toFinset.1 h1, fun x hx => h2 x (List.mem_toFinset.2 hx)⟩
    have hmm : m ≤ m' := by
      by_contra hc
      have h0 := h m' (hl' m' hm')
      have : 0 < l.countP fun x => decide (m' < x) := List.countP_pos_iff.2 ⟨m, hm, by simpa using hc⟩
      obtain ⟨x, hx, hx'⟩ := List.countP_pos_iff.1 (this.trans_le h0)
      exact absurd (hmax' x hx) (not_le.2 (by simpa using hx'))
    have hp := List.perm_cons_erase hm
    have hp' := List.perm_cons_erase hm'
    have hrec := ih (l.erase m) (l'.erase m') (fun x hx => hl' x (List.mem_of_mem_erase hx)) (fun t ht => ?_) (by
      rw [List.length_erase_of_mem hm, hn]; rfl)
    · rw [hp.sum_eq, hp'.sum_eq, List.sum_cons, List.sum_cons]
      exact add_le_add hmm hrec
    · have h0 := h t ht
      rw [hp.countP_eq, hp'.countP_eq, List.countP_cons, List.countP_cons] at h0
      by_cases htm : t < m
      · rw [if_pos (by simpa using htm), if_pos (by simpa using htm.trans_le hmm)] at h0
        omega
      · have : (l.erase m).countP (fun x => decide (t < x)) = 0 := by
          rw [List.countP_eq_zero]
          intro x hx
          have := hmax x (List.mem_of_mem_erase hx)
          simp only [decide_eq_true_eq, not_lt]
          exact this.trans (not_lt.1 htm)
        omega

end Permaviss
