import Verif.Model.Cover
import Verif.Spec.Cover
import Mathlib.Tactic.Ring
import Mathlib.Tactic.Linarith

/-! Grids: positions and their row-major indices. -/

namespace Permaviss

/-- Row-major index with the least significant coordinate first. -/
def rrank : List Nat → List Nat → Nat
  | d :: ds, p :: ps => p + d * rrank ds ps
  | _, _ => 0

theorem rrank_append {ds ps : List Nat} (h : ps.length = ds.length) (d p : Nat) :
    rrank (ds ++ [d]) (ps ++ [p]) = rrank ds ps + ds.prod * p := by
  induction ds generalizing ps with
  | nil =>
    cases ps with
    | nil => simp [rrank]
    | cons a l => simp at h
  | cons e ds ih =>
    cases ps with
    | nil => simp at h
    | cons q ps =>
      simp only [List.cons_append, rrank, List.prod_cons]
      rw [ih (by simpa using h)]
      ring

theorem rank_eq_rrank {ds ps : List Nat} (h : ps.length = ds.length) :
    rank ds ps = rrank ds.reverse ps.reverse := by
  induction ds generalizing ps with
  | nil => cases ps <;> simp [rank, rrank]
  | cons d ds ih =>
    cases ps with
    | nil => simp at h
    | cons p ps =>
      have h' : ps.length = ds.length := by simpa using h
      rw [List.reverse_cons, List.reverse_cons, rrank_append (by simp [h']), ← ih h', rank,
        List.prod_reverse]
      ring

theorem rrank_lt {ds ps : List Nat} (h : IsPos ds ps) : rrank ds ps < ds.prod := by
  unfold IsPos at h
  induction h with
  | nil => simp [rrank]
  | @cons p d ps ds h1 _ ih =>
    simp only [rrank, List.prod_cons]
    calc p + d * rrank ds ps < d + d * rrank ds ps := by omega
      _ = d * (rrank ds ps + 1) := by ring
      _ ≤ d * ds.prod := Nat.mul_le_mul_left _ ih

theorem rrank_inj {ds ps qs : List Nat} (h : IsPos ds ps) (h' : IsPos ds qs)
    (e : rrank ds ps = rrank ds qs) : ps = qs := by
  unfold IsPos at h h'
  induction h generalizing qs with
  | nil => cases h'; rfl
  | @cons p d ps ds h1 _ ih =>
    cases h' with
    | @cons q _ qs _ h2 h3 =>
      simp only [rrank] at e
      have hd : 0 < d := by omega
      have e1 : (p + d * rrank ds ps) % d = p := by
        rw [Nat.add_mul_mod_self_left, Nat.mod_eq_of_lt h1]
      have e2 : (q + d * rrank ds qs) % d = q := by
        rw [Nat.add_mul_mod_self_left, Nat.mod_eq_of_lt h2]
      have hpq : p = q := by rw [← e1, e, e2]
      subst hpq
      have := Nat.eq_of_mul_eq_mul_left hd (Nat.add_left_cancel e)
      rw [ih h3 this]

theorem nextRev_spec {ds ps : List Nat} (h : IsPos ds ps) :
    (rrank ds ps + 1 < ds.prod → ∃ qs, nextRev ps ds = some qs ∧ IsPos ds qs ∧
      rrank ds qs = rrank ds ps + 1) ∧
    (rrank ds ps + 1 = ds.prod → nextRev ps ds = none) := by
  unfold IsPos at h
  induction h with
  | nil => simp [rrank, nextRev]
  | @cons p d ps ds h1 h2 ih =>
    simp only [rrank, List.prod_cons, nextRev]
    have hlt := rrank_lt h2
    by_cases hp : p + 1 < d
    · rw [if_pos hp]
      refine ⟨fun _ => ⟨_, rfl, List.Forall₂.cons hp h2, by simp only [rrank]; ring⟩, fun e => ?_⟩
      exfalso
      have : d * (rrank ds ps + 1) ≤ d * ds.prod := Nat.mul_le_mul_left _ hlt
      rw [Nat.mul_add, Nat.mul_one] at this
      omega
    · rw [if_neg hp]
      have hpd : p + 1 = d := by omega
      have e0 : p + d * rrank ds ps + 1 = d * (rrank ds ps + 1) := by
        rw [Nat.mul_add, Nat.mul_one]; omega
      constructor
      · intro hlt2
        rw [e0] at hlt2
        obtain ⟨qs, e1, e2, e3⟩ := ih.1 (Nat.lt_of_mul_lt_mul_left hlt2)
        refine ⟨0 :: qs, by rw [e1]; rfl, List.Forall₂.cons (by omega) e2, ?_⟩
        simp only [rrank]
        rw [e3, Nat.mul_add, Nat.mul_one]
        omega
      · intro e
        rw [e0] at e
        rw [ih.2 (Nat.eq_of_mul_eq_mul_left (by omega) e)]
        rfl

theorem IsPos.reverse {ds ps : List Nat} (h : IsPos ds ps) : IsPos ds.reverse ps.reverse := by
  unfold IsPos at *
  exact List.forall₂_reverse_iff.2 h

theorem IsPos.length {ds ps : List Nat} (h : IsPos ds ps) : ps.length = ds.length :=
  List.Forall₂.length_eq h

theorem rank_lt {ds ps : List Nat} (h : IsPos ds ps) : rank ds ps < ds.prod := by
  rw [rank_eq_rrank h.length, ← List.prod_reverse]
  exact rrank_lt h.reverse

theorem rank_inj {ds ps qs : List Nat} (h : IsPos ds ps) (h' : IsPos ds qs)
    (e : rank ds ps = rank ds qs) : ps = qs := by
  rw [rank_eq_rrank h.length, rank_eq_rrank h'.length] at e
  exact List.reverse_injective (rrank_inj h.reverse h'.reverse e)

theorem nextHypercube_spec {ds ps : List Nat} (h : IsPos ds ps) :
    (rank ds ps + 1 < ds.prod → IsPos ds (nextHypercube ps ds) ∧
      rank ds (nextHypercube ps ds) = rank ds ps + 1) ∧
    (rank ds ps + 1 = ds.prod → nextHypercube ps ds = ps) := by
  obtain ⟨h1, h2⟩ := nextRev_spec h.reverse
  rw [← rank_eq_rrank h.length, List.prod_reverse] at h1 h2
  constructor
  · intro hlt
    obtain ⟨qs, e1, e2, e3⟩ := h1 hlt
    have e4 : IsPos ds qs.reverse := by simpa using e2.reverse
    unfold nextHypercube
    rw [e1]
    refine ⟨e4, ?_⟩
    change rank ds qs.reverse = _
    rw [rank_eq_rrank e4.length, List.reverse_reverse, e3]
  · intro e
    unfold nextHypercube
    rw [h2 e]; rfl

theorem zero_isPos {ds : List Nat} (h : ∀ d ∈ ds, 0 < d) : IsPos ds (ds.map fun _ => 0) := by
  unfold IsPos
  induction ds with
  | nil => exact List.Forall₂.nil
  | cons d ds ih => exact List.Forall₂.cons (h d (by simp)) (ih fun e he => h e (by simp [he]))

theorem rank_zero (ds : List Nat) : rank ds (ds.map fun _ => 0) = 0 := by
  induction ds with
  | nil => rfl
  | cons d ds ih => simp only [List.map_cons, rank, ih, Nat.zero_mul]

/-- The position reached after `k` steps. -/
def posAt (ds : List Nat) (k : Nat) : List Nat :=
  (fun pos => nextHypercube pos ds)^[k] (ds.map fun _ => 0)

theorem posAt_spec {ds : List Nat} (h : ∀ d ∈ ds, 0 < d) {k : Nat} (hk : k < ds.prod) :
    IsPos ds (posAt ds k) ∧ rank ds (posAt ds k) = k := by
  induction k with
  | zero => exact ⟨zero_isPos h, rank_zero ds⟩
  | succ k ih =>
    obtain ⟨h1, h2⟩ := ih (by omega)
    unfold posAt at *
    rw [Function.iterate_succ_apply']
    have := (nextHypercube_spec h1).1 (by omega)
    rw [h2] at this
    exact this

theorem posAt_rank {ds ps : List Nat} (h : IsPos ds ps) : posAt ds (rank ds ps) = ps := by
  have hpos : ∀ d ∈ ds, 0 < d := by
    intro d hd
    obtain ⟨i, hi, rfl⟩ := List.getElem_of_mem hd
    have := (List.forall₂_iff_get.1 h).2 i (h.length ▸ hi) hi
    exact lt_of_le_of_lt (Nat.zero_le _) this
  obtain ⟨h1, h2⟩ := posAt_spec hpos (rank_lt h)
  exact rank_inj h1 h h2

theorem mem_positions {ds ps : List Nat} (hpos : ∀ d ∈ ds, 0 < d) : ps ∈ positions ds ↔ IsPos ds ps := by
  unfold positions
  rw [List.mem_map]
  constructor
  · rintro ⟨k, hk, rfl⟩
    exact (posAt_spec hpos (List.mem_range.1 hk)).1
  · intro h
    exact ⟨rank ds ps, List.mem_range.2 (rank_lt h), posAt_rank h⟩

end Permaviss
