import Verif.Lemmas.PlaneExt

/-!
# The positions of total degree one through all pages
-/

namespace Permaviss

open Finset

attribute [-instance] instMulZeroClassOfSemiring

section

variable {α : Type} [LinearOrder α] [Zero α] {rnd : α → α} {E : SSEnv α} {ρ : List ℕ → α}

/-- The entries of all pages at the two positions of total degree one. -/
structure PlanePages (E : SSEnv α) (ρ : List ℕ → α) (N : ℕ) (rnd : α → α) (S : SSt α) (D M M1 : Mat)
    (K I H I1 Q I2 : Basis α) : Prop where
  mid : MidPos E ρ rnd S 0 D M K I
  keptK : ∀ k, 2 ≤ k → k < E.noPages → KeptPage S 1 0 k K
  first : FirstPos E rnd S 1 M1 H I1
  third : ThirdPos E ρ N rnd S H Q I2
  keptQ : ∀ k, 3 ≤ k → k < E.noPages → KeptPage S 0 1 k Q
  repsK : K.dim ≠ 0 → 0 < E.spx 1 ∧ ∃ (C L : LChains) (v : ℕ → ℕ → ℕ → ZMod E.p),
    S.reps (E.noPages - 1) 1 0 = [C, L] ∧
    ChainIs E 1 0 K.dim (fun k j => E.fam 1 0 k (K.coords.zcol E.p j)) C ∧
    ChainIs E 0 1 K.dim (fun k j => v j k) L ∧
    ∀ j b, K.barcode[j]? = some b → ∀ k < E.spx 0, E.PresentAt ρ 0 k 1 (v j k) b.1 ∧
      E.bd 0 k 1 (v j k) + E.cechSum D 0 0 k (fun l => E.fam 1 0 l (K.coords.zcol E.p j)) = 0
  repsQ : Q.dim ≠ 0 → ∃ X, S.reps (E.noPages - 1) 0 1 = [X] ∧ ChainIs E 0 1 Q.dim (fun k i =>
    E.fam 0 1 k (linOf (H.coords.zcol E.p) H.barcode.length (Q.coords.zcol E.p i))) X

theorem plane_pages (h : SSOK rnd E ρ) {N : ℕ} {D D' M M1 M2 : Mat} (C : CoverOK E ρ N D)
    (hI : E.CechEx ρ D D') (hlen : 2 < E.columns.length) (he : 1 < E.rows)
    (hNp : E.noPages ≤ E.columns.length + 1) (h4 : 4 ≤ E.noPages) (hD' : E.nerveDiff[1]? = some D')
    (hM : firstDifferential E 0 0 = .ok M) (hM1 : firstDifferential E 0 1 = .ok M1)
    (hM2 : firstDifferential E 1 0 = .ok M2)
    (hg : ∀ d, E.firstBars 0 d = [] → E.firstBars 0 (d + 1) = [])
    (hb0 : ∀ d < E.columns.length, ∀ b ∈ E.firstBars 0 d, b.1 = 0)
    (hround : ∀ deg < 2, ∀ n m, ∀ a ∈ E.firstBars deg n, ∀ b ∈ E.firstBars deg m,
      ∀ x, x = a.1 ∨ x = a.2 → ∀ y, y = b.1 ∨ y = b.2 → rnd x ≤ rnd y → x ≤ y)
    {S : SSt α} (hS : allPages rnd E E.columns.length = .ok S) :
    ∃ K I H I1 Q I2, PlanePages E ρ N rnd S D M M1 K I H I1 Q I2 := by
  obtain ⟨T, hT, hrow⟩ := allPages_rows hS
  obtain ⟨S0, S1, r1, r2⟩ := hrow 0 (by omega)
  obtain ⟨S0', S1', r1', r2'⟩ := hrow 1 he
  obtain ⟨K, I, P⟩ := mid_position h (n := 0) (by omega) (by omega) hg hb0 (hround 0 (by omega)) r1 C.diff hM
  obtain ⟨A, IA, R⟩ := mid_position h (n := 1) (by omega) (by omega) hg hb0 (hround 0 (by omega)) r1 hD' hM2
  obtain ⟨H, I1, F⟩ := first_pos h (by omega) he (hround 1 (by omega)) r1' hM1
  have PT : MidPos E ρ rnd T 0 D M K I := { P with
    hom := by rw [(r2 _).1]; exact P.hom
    prev1 := fun h0 => by rw [(r2 _).1]; exact P.prev1 h0
    im := by rw [(r2 _).2.1]; exact P.im
    reps := fun h0 => by rw [(r2 _).2.2]; exact P.reps h0 }
  have RT : MidPos E ρ rnd T 1 D' M2 A IA := { R with
    hom := by rw [(r2 _).1]; exact R.hom
    prev1 := fun h0 => by rw [(r2 _).1]; exact R.prev1 h0
    im := by rw [(r2 _).2.1]; exact R.im
    reps := fun h0 => by rw [(r2 _).2.2]; exact R.reps h0 }
  have FT : FirstPos E rnd T 1 M1 H I1 := { F with
    hom := by rw [(r2' _).1]; exact F.hom
    prev1 := fun h0 => by rw [(r2' _).1]; exact F.prev1 h0
    im := fun h0 => by rw [(r2' _).2.1]; exact F.im h0
    reps := fun h0 => by rw [(r2' _).2.2]; exact F.reps h0 }
  obtain ⟨k1, k2, k3, -⟩ := pages_kept (n := 1) (deg := 0) (k0 := 1) le_rfl le_rfl (by omega) (by omega)
    (by omega) PT.hom P.liftH.dim P.gens.wf P.srt P.flat (E.noPages - 2) S hT (by omega)
  obtain ⟨m, hm⟩ : ∃ m, E.noPages - 2 = m + 1 := ⟨E.noPages - 3, by omega⟩
  have hT' := hT
  rw [hm, List.range_succ_eq_map, List.map_cons, List.map_map, List.foldlM_cons, bind_ok] at hT'
  obtain ⟨T2, t1, t2⟩ := hT'
  have hfun : (fun x => x + 2) ∘ Nat.succ = fun x => x + (2 + 1) := by
    funext x; simp only [Function.comp_apply]
  rw [hfun] at t2
  obtain ⟨Q, I2, W⟩ := third_pos h C hI hlen he hD' hM1 hM2 hround FT RT t1
  obtain ⟨l1, l2, l3, -⟩ := pages_kept (n := 0) (deg := 1) (k0 := 2) (by omega) (by omega) (by omega) he
    (by omega) W.hom W.liftH.dim W.gens.wf W.srt W.flat m S t2 (by omega)
  have hlast : 1 + (E.noPages - 2) = E.noPages - 1 := by omega
  have hlast' : 2 + m = E.noPages - 1 := by omega
  rw [hlast] at k1 k3
  rw [hlast'] at l1 l3
  refine ⟨K, I, H, I1, Q, I2, ?_, fun k a b => k1 k (by omega) (by omega), ?_, ?_,
    fun k a b => l1 k (by omega) (by omega), ?_, fun h0 => l3 _ (stable_one _) h0 (W.reps h0)⟩
  · have q := k2 1 le_rfl (0 + 1) 0 (by omega)
    exact { PT with
      hom := by rw [q.1]; exact PT.hom
      prev1 := fun h0 => by rw [q.1]; exact PT.prev1 h0
      im := by rw [q.2.1]; exact PT.im
      reps := fun h0 => by rw [q.2.2]; exact PT.reps h0 }
  · have q := k2 1 le_rfl 0 1 (by omega)
    exact { FT with
      hom := by rw [q.1]; exact FT.hom
      prev1 := fun h0 => by rw [q.1]; exact FT.prev1 h0
      im := fun h0 => by rw [q.2.1]; exact FT.im h0
      reps := fun h0 => by rw [q.2.2]; exact FT.reps h0 }
  · have q := l2 2 le_rfl 0 1 (by omega)
    exact { W with
      hom := by rw [q.1]; exact W.hom
      prev2 := fun h0 => by rw [q.1]; exact W.prev2 h0
      im := fun h0 => by rw [q.2.1]; exact W.im h0
      reps := fun h0 => by rw [q.2.2]; exact W.reps h0 }
  · intro h0
    obtain ⟨p1, C0, L, v, p2, p3, p4, p5⟩ := PT.reps h0
    obtain ⟨C1, L1, p6, p7, p8⟩ := k3 _ (stable_two (n := 1) (deg := 0) (n' := 0) (deg' := 1)
      (fun k j => E.fam 1 0 k (K.coords.zcol E.p j)) (fun k j => v j k)) h0 ⟨C0, L, p2, p3, p4⟩
    exact ⟨p1, C1, L1, v, p6, p7, p8, p5⟩

end

end Permaviss
