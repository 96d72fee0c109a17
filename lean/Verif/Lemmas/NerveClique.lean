import Verif.Lemmas.Nerve
import Verif.Lemmas.Flag
import Mathlib.Data.List.NodupEquivFin

/-! Cliques of the nerve. -/

namespace Permaviss

/-- Number of coordinates along which there are at least two cubes. -/
def wideDims (ds : List Nat) : Nat := (ds.filter fun d => decide (2 ≤ d)).length

theorem wideDims_le (ds : List Nat) : wideDims ds ≤ ds.length := List.length_filter_le _ _

/-- Pairwise adjacent positions lie in a block of `2 ^ wideDims` pairwise adjacent positions. -/
theorem exists_block (ds : List Nat) : ∀ S : List (List Nat), S ≠ [] → (∀ p ∈ S, IsPos ds p) →
    (∀ p ∈ S, ∀ q ∈ S, Adjacent p q) →
    ∃ B : List (List Nat), B.Nodup ∧ B.length = 2 ^ wideDims ds ∧ (∀ b ∈ B, IsPos ds b) ∧
      (∀ b ∈ B, ∀ c ∈ B, Adjacent b c) ∧ ∀ p ∈ S, p ∈ B := by
  induction ds with
  | nil =>
    intro S hne hpos _
    refine ⟨[[]], by simp, by simp [wideDims], ?_, ?_, ?_⟩
    · intro b hb
      rw [List.mem_singleton] at hb
      subst hb
      exact List.Forall₂.nil
    · intro b hb c hc
      rw [List.mem_singleton] at hb hc
      subst hb hc
      exact List.Forall₂.nil
    · intro p hp
      have := hpos p hp
      cases this
      simp
  | cons d ds ih =>
    intro S hne hpos hadj
    have hcons : ∀ p ∈ S, ∃ h t, p = h :: t ∧ h < d ∧ IsPos ds t := by
      intro p hp
      have := hpos p hp
      cases this with
      | @cons h _ t _ h1 h2 => exact ⟨h, t, rfl, h1, h2⟩
    have hadj' : ∀ h t h' t', h :: t ∈ S → h' :: t' ∈ S → (h ≤ h' + 1 ∧ h' ≤ h + 1) ∧ Adjacent t t' := by
      intro h t h' t' h1 h2
      have := hadj _ h1 _ h2
      cases this with
      | cons a b => exact ⟨a, b⟩
    obtain ⟨B, b1, b2, b3, b4, b5⟩ := ih (S.map List.tail) (by simpa using hne) (by
      intro p hp
      obtain ⟨q, hq, rfl⟩ := List.mem_map.1 hp
      obtain ⟨h, t, rfl, -, h2⟩ := hcons q hq
      exact h2) (by
      intro p hp q hq
      obtain ⟨p', hp', rfl⟩ := List.mem_map.1 hp
      obtain ⟨q', hq', rfl⟩ := List.mem_map.1 hq
      obtain ⟨h, t, rfl, -, -⟩ := hcons p' hp'
      obtain ⟨h', t', rfl, -, -⟩ := hcons q' hq'
      exact (hadj' _ _ _ _ hp' hq').2)
    have htail : ∀ h t, h :: t ∈ S → t ∈ B := fun h t hm => b5 t (List.mem_map.2 ⟨h :: t, hm, rfl⟩)
    by_cases hd : 2 ≤ d
    · -- two choices
      obtain ⟨m, hm, hall⟩ : ∃ m, m + 1 < d ∧ ∀ h t, h :: t ∈ S → h = m ∨ h = m + 1 := by
        have hexn : ∃ a, ∃ t, a :: t ∈ S := by
          obtain ⟨p, hp⟩ := List.exists_mem_of_ne_nil S hne
          obtain ⟨h, t, rfl, -, -⟩ := hcons p hp
          exact ⟨h, t, hp⟩
        classical
        obtain ⟨t0, ht0⟩ := Nat.find_spec hexn
        have hmin : ∀ h t, h :: t ∈ S → Nat.find hexn ≤ h := fun h t hm => Nat.find_min' hexn ⟨t, hm⟩
        obtain ⟨_, _, e, h1, -⟩ := hcons _ ht0
        simp only [List.cons.injEq] at e
        refine ⟨min (Nat.find hexn) (d - 2), by omega, ?_⟩
        intro h t hm
        have h2 := hmin h t hm
        have h3 := (hadj' _ _ _ _ hm ht0).1
        obtain ⟨_, _, e', h4, -⟩ := hcons _ hm
        simp only [List.cons.injEq] at e'
        omega
      refine ⟨B.map (m :: ·) ++ B.map ((m + 1) :: ·), ?_, ?_, ?_, ?_, ?_⟩
      · rw [List.nodup_append]
        refine ⟨b1.map fun a b h => (List.cons.inj h).2, b1.map fun a b h => (List.cons.inj h).2, ?_⟩
        intro a ha b hb
        obtain ⟨x, -, rfl⟩ := List.mem_map.1 ha
        obtain ⟨y, -, rfl⟩ := List.mem_map.1 hb
        intro h
        have := (List.cons.inj h).1
        omega
      · have : wideDims (d :: ds) = wideDims ds + 1 := by simp [wideDims, hd]
        rw [this, pow_succ]
        simp [b2]; omega
      · intro b hb
        rcases List.mem_append.1 hb with hb | hb
        · obtain ⟨x, hx, rfl⟩ := List.mem_map.1 hb
          exact List.Forall₂.cons (by omega) (b3 x hx)
        · obtain ⟨x, hx, rfl⟩ := List.mem_map.1 hb
          exact List.Forall₂.cons (by omega) (b3 x hx)
      · intro b hb c hc
        have key : ∀ b ∈ B.map (m :: ·) ++ B.map ((m + 1) :: ·), ∃ h t, b = h :: t ∧
            (h = m ∨ h = m + 1) ∧ t ∈ B := by
          intro b hb
          rcases List.mem_append.1 hb with hb | hb
          · obtain ⟨x, hx, rfl⟩ := List.mem_map.1 hb
            exact ⟨_, _, rfl, Or.inl rfl, hx⟩
          · obtain ⟨x, hx, rfl⟩ := List.mem_map.1 hb
            exact ⟨_, _, rfl, Or.inr rfl, hx⟩
        obtain ⟨h, t, rfl, h1, h2⟩ := key b hb
        obtain ⟨h', t', rfl, h1', h2'⟩ := key c hc
        exact List.Forall₂.cons (by omega) (b4 t h2 t' h2')
      · intro p hp
        obtain ⟨h, t, rfl, -, -⟩ := hcons p hp
        rw [List.mem_append]
        rcases hall h t hp with rfl | rfl
        · exact Or.inl (List.mem_map.2 ⟨t, htail _ t hp, rfl⟩)
        · exact Or.inr (List.mem_map.2 ⟨t, htail _ t hp, rfl⟩)
    · have hzero : ∀ h t, h :: t ∈ S → h = 0 ∧ d = 1 := by
        intro h t hm
        obtain ⟨_, _, e, h1, -⟩ := hcons _ hm
        simp only [List.cons.injEq] at e
        omega
      have hd1 : d = 1 := by
        obtain ⟨p, hp⟩ := List.exists_mem_of_ne_nil S hne
        obtain ⟨h, t, rfl, -, -⟩ := hcons p hp
        exact (hzero h t hp).2
      refine ⟨B.map (0 :: ·), b1.map fun a b h => (List.cons.inj h).2, ?_, ?_, ?_, ?_⟩
      · simp [wideDims, hd] at *
        exact b2
      · intro b hb
        obtain ⟨x, hx, rfl⟩ := List.mem_map.1 hb
        exact List.Forall₂.cons (by omega) (b3 x hx)
      · intro b hb c hc
        obtain ⟨x, hx, rfl⟩ := List.mem_map.1 hb
        obtain ⟨y, hy, rfl⟩ := List.mem_map.1 hc
        exact List.Forall₂.cons (by omega) (b4 x hx y hy)
      · intro p hp
        obtain ⟨h, t, rfl, -, -⟩ := hcons p hp
        rw [(hzero h t hp).1]
        exact List.mem_map.2 ⟨t, htail _ t hp, rfl⟩

theorem Adjacent.refl' (p : List Nat) : Adjacent p p := by
  unfold Adjacent
  rw [List.forall₂_same]
  intro x _; omega

theorem Adjacent.symm' {p q : List Nat} (h : Adjacent p q) : Adjacent q p :=
  List.Forall₂.flip (h.imp fun _ _ h => ⟨h.2, h.1⟩)

theorem nerveGraph_isEdgeList {ds : List Nat} {G : List (List Nat)} (hnd : G.Nodup)
    (hG : ∀ e, e ∈ G ↔ ∃ p q, IsPos ds p ∧ IsPos ds q ∧ Adjacent p q ∧ rank ds p < rank ds q ∧
        e = [rank ds p, rank ds q]) : IsEdgeList G := by
  refine ⟨fun e he => ?_, hnd⟩
  obtain ⟨p, q, -, -, -, h, rfl⟩ := (hG e).1 he
  exact ⟨_, _, h, rfl⟩

/-- The positions of the vertices of a clique. -/
theorem clique_positions {ds : List Nat} {G : List (List Nat)} (hpos : ∀ d ∈ ds, 0 < d)
    (hG : ∀ e, e ∈ G ↔ ∃ p q, IsPos ds p ∧ IsPos ds q ∧ Adjacent p q ∧ rank ds p < rank ds q ∧
        e = [rank ds p, rank ds q]) {s : List Nat} (hs : IsClique G s) (hlt : ∀ v ∈ s, v < ds.prod) :
    (s.map (posAt ds)).Nodup ∧ (∀ p ∈ s.map (posAt ds), IsPos ds p) ∧
    ∀ p ∈ s.map (posAt ds), ∀ q ∈ s.map (posAt ds), Adjacent p q := by
  have hsp : ∀ v ∈ s, IsPos ds (posAt ds v) ∧ rank ds (posAt ds v) = v :=
    fun v hv => posAt_spec hpos (hlt v hv)
  have hadj : ∀ u v, [u, v] ∈ G → Adjacent (posAt ds u) (posAt ds v) := by
    intro u v h
    obtain ⟨p, q, hp, hq, h1, -, e⟩ := (hG _).1 h
    simp only [List.cons.injEq, and_true] at e
    rw [e.1, e.2, posAt_rank hp, posAt_rank hq]
    exact h1
  have hlt' : s.Pairwise (· < ·) := hs.imp fun h => h.1
  refine ⟨?_, ?_, ?_⟩
  · refine List.Nodup.map_on ?_ (hlt'.imp fun h => by omega)
    intro x hx y hy e
    rw [← (hsp x hx).2, ← (hsp y hy).2, e]
  · intro p hp
    obtain ⟨v, hv, rfl⟩ := List.mem_map.1 hp
    exact (hsp v hv).1
  · intro p hp q hq
    obtain ⟨u, hu, rfl⟩ := List.mem_map.1 hp
    obtain ⟨v, hv, rfl⟩ := List.mem_map.1 hq
    obtain ⟨i, hi, rfl⟩ := List.getElem_of_mem hu
    obtain ⟨j, hj, rfl⟩ := List.getElem_of_mem hv
    have hpw := List.pairwise_iff_getElem.1 hs
    rcases lt_trichotomy i j with h | h | h
    · exact hadj _ _ (hpw i j hi hj h).2
    · subst h; exact Adjacent.refl' _
    · exact (hadj _ _ (hpw j i hj hi h).2).symm'

theorem clique_card {ds : List Nat} {G : List (List Nat)} (hpos : ∀ d ∈ ds, 0 < d)
    (hG : ∀ e, e ∈ G ↔ ∃ p q, IsPos ds p ∧ IsPos ds q ∧ Adjacent p q ∧ rank ds p < rank ds q ∧
        e = [rank ds p, rank ds q]) {s : List Nat} (hs : IsClique G s) (hlt : ∀ v ∈ s, v < ds.prod) :
    s.length ≤ 2 ^ wideDims ds := by
  by_cases hne : s = []
  · subst hne; simp
  obtain ⟨h1, h2, h3⟩ := clique_positions hpos hG hs hlt
  obtain ⟨B, -, b2, -, -, b5⟩ := exists_block ds _ (by simpa using hne) h2 h3
  have := (List.subperm_of_subset h1 (fun p hp => b5 p hp)).length_le
  rw [List.length_map] at this
  omega

/-- A clique with fewer than `2 ^ wideDims` vertices can be enlarged. -/
theorem clique_extend {ds : List Nat} {G : List (List Nat)} (hpos : ∀ d ∈ ds, 0 < d)
    (hG : ∀ e, e ∈ G ↔ ∃ p q, IsPos ds p ∧ IsPos ds q ∧ Adjacent p q ∧ rank ds p < rank ds q ∧
        e = [rank ds p, rank ds q]) {s : List Nat} (hs : IsClique G s) (hlt : ∀ v ∈ s, v < ds.prod)
    (hne : s ≠ []) (hcard : s.length < 2 ^ wideDims ds) :
    ∃ v t, v < ds.prod ∧ v ∉ s ∧ IsClique G t ∧ t.Perm (v :: s) := by
  obtain ⟨h1, h2, h3⟩ := clique_positions hpos hG hs hlt
  obtain ⟨B, b1, b2, b3, b4, b5⟩ := exists_block ds _ (by simpa using hne) h2 h3
  obtain ⟨b, hb, hbs⟩ : ∃ b ∈ B, b ∉ s.map (posAt ds) := by
    by_contra hc
    push Not at hc
    have := (List.subperm_of_subset b1 (fun p hp => hc p hp)).length_le
    rw [List.length_map] at this
    omega
  have hbp := b3 b hb
  have hvs : rank ds b ∉ s := by
    intro h
    exact hbs (List.mem_map.2 ⟨_, h, posAt_rank hbp⟩)
  have hadj : ∀ u ∈ s, Adjacent (posAt ds u) b := fun u hu =>
    b4 _ (b5 _ (List.mem_map.2 ⟨u, hu, rfl⟩)) _ hb
  have hlow : ∀ u ∈ s, u < rank ds b → [u, rank ds b] ∈ G := by
    intro u hu h
    obtain ⟨h4, h5⟩ := posAt_spec hpos (hlt u hu)
    exact (hG _).2 ⟨posAt ds u, b, h4, hbp, hadj u hu, by rw [h5]; exact h, by rw [h5]⟩
  have hhigh : ∀ u ∈ s, rank ds b < u → [rank ds b, u] ∈ G := by
    intro u hu h
    obtain ⟨h4, h5⟩ := posAt_spec hpos (hlt u hu)
    exact (hG _).2 ⟨b, posAt ds u, hbp, h4, (hadj u hu).symm', by rw [h5]; exact h, by rw [h5]⟩
  refine ⟨rank ds b, s.orderedInsert (· ≤ ·) (rank ds b), rank_lt hbp, hvs, ?_,
    List.perm_orderedInsert _ _ _⟩
  have key : ∀ (l : List Nat), IsClique G l → (∀ u ∈ l, u ∈ s) →
      IsClique G (l.orderedInsert (· ≤ ·) (rank ds b)) := by
    intro l hl hsub
    unfold IsClique at *
    induction l with
    | nil => simp
    | cons a l ih =>
      rw [List.pairwise_cons] at hl
      have has := hsub a (by simp)
      have hane : a ≠ rank ds b := fun e => hvs (e ▸ has)
      rw [List.orderedInsert_cons]
      split
      · rename_i hle
        rw [List.pairwise_cons, List.pairwise_cons]
        refine ⟨?_, hl⟩
        intro u hu
        rcases List.mem_cons.1 hu with rfl | hu
        · exact ⟨by omega, hhigh u has (by omega)⟩
        · have := (hl.1 u hu).1
          exact ⟨by omega, hhigh u (hsub u (by simp [hu])) (by omega)⟩
      · rename_i hle
        rw [List.pairwise_cons]
        refine ⟨?_, ih hl.2 fun u hu => hsub u (by simp [hu])⟩
        intro u hu
        rw [List.mem_orderedInsert] at hu
        rcases hu with rfl | hu
        · exact ⟨by omega, hlow a has (by omega)⟩
        · exact hl.1 u hu
  exact key s hs fun u hu => hu

end Permaviss
