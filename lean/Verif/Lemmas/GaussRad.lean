import Verif.Lemmas.GaussMore
import Verif.Lemmas.ExceptM

/-! Correctness of `gauss_col_rad`. -/

namespace Permaviss

open Finset

variable {p : ℕ} {α : Type} [LinearOrder α]

/-- Columns usable for a target of radius `rj`. -/
def Elig (p : ℕ) (rj : α) (done : List (α × (List Int × List Int))) :
    Set ((ℕ → ZMod p) × (ℕ → ZMod p)) := {x | ∃ k ∈ done, k.1 ≤ rj ∧ pz p k.2 = x}

theorem radScan_spec (hp : p.Prime) {m n pv : ℕ} (rj : α)
    (done : List (α × (List Int × List Int))) : (∀ k ∈ done, PairOK p m n k.2) →
    ∀ rt, PairOK p m n rt → (∀ j, pv < j → zv p rt.1 j = 0) →
    ∃ rt', radScan p rj pv done rt = .ok rt' ∧ PairOK p m n rt' ∧
      pz p rt' - pz p rt ∈ Submodule.span (ZMod p) (Elig p rj done) ∧
      (∀ j, pv < j → zv p rt'.1 j = 0) ∧
      ((∃ k ∈ done, k.1 ≤ rj ∧ indexPivot k.2.1 = some pv) → zv p rt'.1 pv = 0) ∧
      ((¬ ∃ k ∈ done, k.1 ≤ rj ∧ indexPivot k.2.1 = some pv) → rt' = rt) := by
  induction done with
  | nil =>
    intro _ rt hrt hz
    exact ⟨rt, rfl, hrt, by simp, hz, by simp, by simp⟩
  | cons k ks ih =>
    intro hok rt hrt hz
    have hks : ∀ k ∈ ks, PairOK p m n k.2 := fun k' h => hok k' (by simp [h])
    have hmono : Submodule.span (ZMod p) (Elig p rj ks) ≤
        Submodule.span (ZMod p) (Elig p rj (k :: ks)) := by
      apply Submodule.span_mono
      rintro x ⟨k', h1, h2, h3⟩
      exact ⟨k', by simp [h1], h2, h3⟩
    unfold radScan
    by_cases hm : k.1 ≤ rj ∧ indexPivot k.2.1 = some pv
    · rw [if_pos hm]
      obtain ⟨rt1, h1, hok1, ⟨c, hc⟩, h0, hab⟩ := cancelPivot_spec hp (hok k (by simp)) hrt hm.2
      rw [h1]
      simp only [bind, Except.bind]
      have hmem1 : pz p rt1 - pz p rt ∈ Submodule.span (ZMod p) (Elig p rj (k :: ks)) := by
        rw [hc, add_sub_cancel_left]
        exact Submodule.smul_mem _ _ (Submodule.subset_span ⟨k, by simp, hm.1, rfl⟩)
      have hz1 : ∀ j, pv < j → zv p rt1.1 j = 0 := fun j hj => by rw [hab j hj, hz j hj]
      by_cases ha : npAny rt1.1 = true
      · rw [if_pos ha]
        refine ⟨rt1, rfl, hok1, hmem1, hz1, fun _ => h0, fun h => absurd ⟨k, by simp, hm⟩ h⟩
      · rw [if_neg ha]
        obtain ⟨rt2, h2, hok2, hm2, hz2, hy, hn⟩ := ih hks rt1 hok1 hz1
        refine ⟨rt2, h2, hok2, ?_, hz2, ?_, fun h => absurd ⟨k, by simp, hm⟩ h⟩
        · have e : pz p rt2 - pz p rt = (pz p rt2 - pz p rt1) + (pz p rt1 - pz p rt) := by abel
          rw [e]; exact Submodule.add_mem _ (hmono hm2) hmem1
        · intro _
          by_cases hex : ∃ k ∈ ks, k.1 ≤ rj ∧ indexPivot k.2.1 = some pv
          · exact hy hex
          · rw [hn hex]; exact h0
    · rw [if_neg hm]
      obtain ⟨rt2, h2, hok2, hm2, hz2, hy, hn⟩ := ih hks rt hrt hz
      refine ⟨rt2, h2, hok2, hmono hm2, hz2, ?_, ?_⟩
      · rintro ⟨k', hk', h3⟩
        rcases List.mem_cons.mp hk' with h4 | h4
        · subst h4; exact absurd h3 hm
        · exact hy ⟨k', h4, h3⟩
      · intro h
        exact hn fun ⟨k', hk', h3⟩ => h ⟨k', by simp [hk'], h3⟩

/-- The `while` loop of `gauss_col_rad` either clears the column or raises `RuntimeError` at a pivot
that no usable column has. -/
theorem radLoop_spec (hp : p.Prime) {m n : ℕ} (rj : α)
    (done : List (α × (List Int × List Int))) (hd : ∀ k ∈ done, PairOK p m n k.2) (fuel : ℕ) :
    ∀ rt, PairOK p m n rt → 0 < fuel → (∀ pv, indexPivot rt.1 = some pv → pv + 1 < fuel) →
    (∃ rt', radLoop p rj done fuel rt = .ok rt' ∧ PairOK p m n rt' ∧ zv p rt'.1 = 0 ∧
      pz p rt' - pz p rt ∈ Submodule.span (ZMod p) (Elig p rj done)) ∨
    (radLoop p rj done fuel rt = .error .runtimeError ∧
      ∃ x ∈ Submodule.span (ZMod p) (Elig p rj done), ∃ pv, IsPiv (zv p rt.1 + x.1) pv ∧
        ¬ ∃ k ∈ done, k.1 ≤ rj ∧ IsPiv (zv p k.2.1) pv) := by
  induction fuel with
  | zero => intro rt _ h; omega
  | succ f ih =>
    intro rt hrt _ hf
    unfold radLoop
    cases hpv : indexPivot rt.1 with
    | none =>
      left
      exact ⟨rt, rfl, hrt, (hrt.red1.indexPivot_none hp.pos).mp hpv, by simp⟩
    | some pv =>
      simp only
      have hpiv := (hrt.red1.indexPivot_some hp.pos).mp hpv
      obtain ⟨rt1, h1, hok1, hm1, hz1, hy, hn⟩ := radScan_spec hp rj done hd rt hrt hpiv.2
      rw [h1]
      simp only [bind, Except.bind]
      by_cases hex : ∃ k ∈ done, k.1 ≤ rj ∧ indexPivot k.2.1 = some pv
      · have h0 := hy hex
        have hlt : ∀ pv', indexPivot rt1.1 = some pv' → pv' < pv := by
          intro pv' h
          have h2 := (hok1.red1.indexPivot_some hp.pos).mp h
          by_contra hc
          rcases Nat.lt_or_ge pv pv' with h3 | h3
          · exact h2.1 (hz1 pv' h3)
          · have : pv' = pv := by omega
            subst this; exact h2.1 h0
        rw [if_neg (by intro h; exact absurd (hlt pv h) (by omega))]
        have hfp := hf pv hpv
        rcases ih rt1 hok1 (by omega) (fun pv' h => by have := hlt pv' h; omega) with
          ⟨rt', h2, h3, h4, h5⟩ | ⟨h2, x, hx, pv', h3, h4⟩
        · left
          refine ⟨rt', h2, h3, h4, ?_⟩
          have e : pz p rt' - pz p rt = (pz p rt' - pz p rt1) + (pz p rt1 - pz p rt) := by abel
          rw [e]; exact Submodule.add_mem _ h5 hm1
        · right
          refine ⟨h2, x + (pz p rt1 - pz p rt), Submodule.add_mem _ hx hm1, pv', ?_, h4⟩
          have e : zv p rt.1 + (x + (pz p rt1 - pz p rt)).1 = zv p rt1.1 + x.1 := by
            simp only [Prod.fst_add, Prod.fst_sub, pz]; abel
          rw [e]; exact h3
      · right
        rw [hn hex, if_pos hpv]
        refine ⟨rfl, 0, Submodule.zero_mem _, pv, by simpa using hpiv, ?_⟩
        rintro ⟨k, hk, h2, h3⟩
        exact hex ⟨k, hk, h2, ((hd k hk).red1.indexPivot_some hp.pos).mpr h3⟩

end Permaviss
