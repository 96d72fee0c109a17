import Verif.Lemmas.ThinLift
import Verif.Lemmas.StripChains

/-!
# Chains whose entries refer to every expression or to none
-/

namespace Permaviss

open Finset

attribute [-instance] instMulZeroClassOfSemiring

/-- Every entry of `C` refers to the expressions `0, …, m - 1`, or is empty. -/
def FullRefs (m : ℕ) (C : LChains) : Prop :=
  ∀ k, (C.getD k LEntry.empty).ref = [] ∨ ∀ g, g ∈ (C.getD k LEntry.empty).ref ↔ g < m

theorem FullRefs.zeros (m k : ℕ) : FullRefs m (LChains.zeros k) := fun l => by
  left; rw [zeros_getD]; rfl

theorem FullRefs.of_lt {m s : ℕ} {C : LChains} (hs : C.length = s)
    (h : ∀ k < s, (C.getD k LEntry.empty).ref = [] ∨ ∀ g, g ∈ (C.getD k LEntry.empty).ref ↔ g < m) :
    FullRefs m C := by
  intro k
  rcases lt_or_ge k s with hk | hk
  · exact h k hk
  · left
    rw [List.getD_eq_getElem?_getD, List.getElem?_eq_none (by omega)]; rfl

theorem FullRefs.add {m : ℕ} {ws : List ℕ} {A B C : LChains} (hA : A.WF ws) (hB : B.WF ws)
    (fA : FullRefs m A) (fB : FullRefs m B) (h : A.add B = .ok C) : FullRefs m C := by
  obtain ⟨C', h1, -, -, h2⟩ := C44_add hA hB
  rw [h] at h1
  obtain rfl := Except.ok.inj h1
  intro k
  rcases fA k with a | a
  · rcases fB k with b | b
    · left
      rw [List.eq_nil_iff_forall_not_mem]
      intro g hg
      rw [h2, a, b] at hg
      simp at hg
    · right; intro g; rw [h2, a, b]; simp
  · rcases fB k with b | b
    · right; intro g; rw [h2, a, b]; simp
    · right; intro g; rw [h2, a, b]; simp

theorem FullRefs.sums {m : ℕ} {C C' : LChains} {M : List (List ℤ)} {n : ℕ} (hM : M.length = m)
    (h : C.sums M n = .ok C') : FullRefs m C' := by
  obtain ⟨m1, m2⟩ := mapM_ok_spec h
  refine FullRefs.of_lt rfl fun k hk => ?_
  rw [List_getD_eq_getElem _ _ hk]
  have := m2 k (by omega) hk
  generalize C'[k] = e at this
  unfold LEntry.sums at this
  split at this
  · cases this; left; rfl
  · split at this
    · cases this; right; intro g; simp [hM]
    · cases this

theorem FullRefs.minus {m p : ℕ} {C : LChains} (h : FullRefs m C) : FullRefs m (C.minus p) := by
  intro k
  rcases lt_or_ge k C.length with hk | hk
  · have := h k
    unfold LChains.minus
    rw [getD_map_lt hk]
    rw [List_getD_eq_getElem _ _ hk] at this
    exact this
  · left
    rw [List.getD_eq_getElem?_getD, List.getElem?_eq_none (by unfold LChains.minus; rw [List.length_map]; exact hk)]
    rfl

theorem FullRefs.zeroRows {m : ℕ} {C : LChains} (mask : List Bool) (h : FullRefs m C) :
    FullRefs m (zeroRows mask C) := by
  intro k
  rcases lt_or_ge k C.length with hk | hk
  · have := h k
    unfold Permaviss.zeroRows
    rw [getD_map_lt hk]
    rw [List_getD_eq_getElem _ _ hk] at this
    exact this
  · left
    rw [List.getD_eq_getElem?_getD, List.getElem?_eq_none (by
      unfold Permaviss.zeroRows; rw [List.length_map]; exact hk)]
    rfl

/-- Subtracting chains with the same references succeeds. -/
theorem subtractBeta_total {p m : ℕ} {ws : List ℕ} : ∀ {C B : LChains}, C.WF ws → B.WF ws →
    FullRefs m C → FullRefs m B → ∃ X, subtractBeta p C B = .ok X ∧ FullRefs m X := by
  intro C B hC hB fC fB
  have key : ∀ {ws : List ℕ} {C B : LChains}, C.WF ws → B.WF ws →
    FullRefs m C → FullRefs m B → ∃ X, subtractBeta p C B = .ok X := by
    intro ws C B hC
    induction hC generalizing B with
    | nil => intro _ _ _; exact ⟨[], rfl⟩
    | @cons w e ws es he _ ih =>
      intro hB fC fB
      cases hB with
      | @cons _ b _ bs hb hbs =>
      obtain ⟨X, hX⟩ := ih hbs (fun k => fC (k + 1)) (fun k => fB (k + 1))
      unfold subtractBeta
      dsimp only
      split
      · next hlen =>
        rw [if_neg]
        · rw [hX]; exact ⟨_, rfl⟩
        · rw [not_not]
          have c0 := fC 0
          have b0 := fB 0
          simp only [List.getD_cons_zero] at c0 b0
          rcases c0 with c0 | c0
          · rw [c0] at hlen; simp at hlen
          rcases b0 with b0 | b0
          · rw [b0] at hlen; simp at hlen
          apply List.Perm.eq_of_pairwise (le := (· < ·))
          · intro x y _ _ h1 h2; exact absurd (h1.trans h2) (lt_irrefl _)
          · exact he.increasing
          · exact hb.increasing
          · rw [List.perm_ext_iff_of_nodup (he.increasing.imp fun h => ne_of_lt h)
              (hb.increasing.imp fun h => ne_of_lt h)]
            intro g; rw [c0, b0]
      · split
        · rw [hX]; exact ⟨_, rfl⟩
        · rw [hX]; exact ⟨_, rfl⟩
  obtain ⟨X, hX⟩ := key hC hB fC fB
  refine ⟨X, hX, ?_⟩
  obtain ⟨x1, x2⟩ := subtractBeta_get hX
  refine FullRefs.of_lt x1 fun k hk => ?_
  rcases x2 k hk with ⟨h1, -⟩ | ⟨h1, -⟩ | ⟨-, h1⟩
  · rw [h1]; exact fB k
  · rw [h1]; exact fC k
  · rw [h1]; exact fC k

section

variable {α : Type} [LinearOrder α] [Zero α] {rnd : α → α} {E : SSEnv α} {ρ : List ℕ → α}

theorem FullRefs.cechDiff (h : SSOK rnd E ρ) {n deg m : ℕ} {D : Mat}
    (hD : E.nerveDiff[n]? = some D) (hn : n + 1 < E.columns.length) (hpos : 0 < E.spx (n + 1))
    (hdeg : deg ≤ E.rows) {C C' : LChains} (hC : C.WF (E.widths (n + 1) deg)) (fC : FullRefs m C)
    (hr : cechDiff E n deg C = .ok C') : FullRefs m C' := by
  obtain ⟨C'', t1, t2, -, t4, -⟩ := cechDiff_spec h hD hn hpos hdeg hC
  rw [hr] at t1
  obtain rfl := Except.ok.inj t1
  refine FullRefs.of_lt (by rw [t2.length, widths_length]) fun k hk => ?_
  by_cases hex : ∃ l < E.spx (n + 1), D.get k l ≠ 0 ∧ (C.getD l LEntry.empty).ref ≠ []
  · obtain ⟨l, hl, h1, h2⟩ := hex
    have h3 := (fC l).resolve_left h2
    right
    intro g
    rw [t4 k hk]
    constructor
    · rintro ⟨l', -, -, hg⟩
      rcases fC l' with h4 | h4
      · rw [h4] at hg; simp at hg
      · exact (h4 g).1 hg
    · intro hg; exact ⟨l, hl, h1, (h3 g).2 hg⟩
  · left
    rw [List.eq_nil_iff_forall_not_mem]
    intro g hg
    obtain ⟨l, hl, h1, h2⟩ := (t4 k hk g).1 hg
    exact hex ⟨l, hl, h1, List.ne_nil_of_mem h2⟩

theorem classFold_full {n deg : ℕ} (h : SSOK rnd E ρ) (hn : n < E.columns.length)
    (hpos : 0 < E.spx n) (hdeg : deg < E.rows) {nr m : ℕ} {cols : List (List ℤ)} {cyc : List ℕ}
    (hcyc : E.cyc n deg = .ok cyc) {C : LChains}
    (hrun : (spans cyc).foldlM (fun (acc : LChains) s =>
      if s.2.1 < s.2.2 then do
        let h0 ← E.hom0 n s.1 deg
        let rows ← localRows h0.coords nr cols s.2.1 s.2.2
        acc.addEntry s.1 (List.range m) rows
      else .ok acc) (LChains.zeros (E.spx n)) = .ok C) : FullRefs m C := by
  obtain ⟨hcy, -, -⟩ := h.firstPage (n := n) (deg := deg) hn hpos hdeg
  rw [hcy] at hcyc
  obtain rfl := Except.ok.inj hcyc
  rw [SSOK.spans_cyc] at hrun
  obtain ⟨r1, r2⟩ := foldPieces _ (fun k e => e.ref = [] ∨ ∀ g, g ∈ e.ref ↔ g < m) (by
    intro k hk acc acc' hacc hF h0
    dsimp only at hF
    split at hF
    · rw [bind_ok] at hF
      obtain ⟨h0', -, hF⟩ := hF
      rw [bind_ok] at hF
      obtain ⟨rows, -, hF⟩ := hF
      obtain ⟨a1, a2, a3, a4⟩ := addEntry_inv hF h0
      refine ⟨by rw [a2, hacc], ?_, a4⟩
      rw [a3]
      right; intro g; simp
    · cases hF
      refine ⟨hacc, ?_, fun _ _ => rfl⟩
      rw [h0]; left; rfl) hrun
  exact FullRefs.of_lt r1 r2

theorem LiftGood.full {n deg m : ℕ} {C : LChains} {R : List α} {out : List (List ℤ) × LChains}
    (hG : LiftGood E n deg C R out) (hl : out.2.length = E.spx n) (fC : FullRefs m C) : FullRefs m out.2 := by
  refine FullRefs.of_lt hl fun k hk => ?_
  rcases hG.refs k hk with h | h
  · rw [h]; exact fC k
  · exact Or.inl h

end

end Permaviss
