import Verif.Lemmas.IKInv

/-!
# `image_kernel`: how the history changes, small facts about the updates
-/

namespace Permaviss

open Finset

variable {α : Type} [LinearOrder α]

/-- `multiply_mod_p(F[:, active], v[active])` is `F` applied to the active part. -/
theorem zv_mulAt {E : IKEnv α} (hE : EnvOK E) {S : ℕ → Prop} {idx : List ℕ}
    (hs : idx.Pairwise (· < ·)) (hidx : ∀ i, i ∈ idx ↔ S i) (hS : ∀ i, S i → i < E.A.dim)
    (v : List Int) : zv E.p (mulAt E.p E.F idx v) = E.ev (restr S (zv E.p v)) := by
  classical
  funext r
  rw [hE.ev_apply]
  have hn : idx.Nodup := hs.imp (fun h => Nat.ne_of_lt h)
  have key : (((idx.map fun k => E.F.get r k * v.getD k 0).sum : Int) : ZMod E.p) =
      ∑ k ∈ range E.A.dim, restr S (zv E.p v) k * E.F.z E.p r k := by
    have h1 : (((idx.map fun k => E.F.get r k * v.getD k 0).sum : Int) : ZMod E.p) =
        (idx.map fun k => zv E.p v k * E.F.z E.p r k).sum := by
      clear hs hidx hn
      induction idx with
      | nil => simp
      | cons a l ih =>
        simp only [List.map_cons, List.sum_cons, Int.cast_add, Int.cast_mul, ih]
        simp only [zv, Mat.z, mul_comm]
    rw [h1, ← List.sum_toFinset _ hn]
    have h2 : idx.toFinset = (range E.A.dim).filter S := by
      ext i
      simp only [List.mem_toFinset, Finset.mem_filter, mem_range, hidx]
      exact ⟨fun h => ⟨hS i h, h⟩, fun h => h.2⟩
    rw [h2, Finset.sum_filter]
    refine Finset.sum_congr rfl fun k _ => ?_
    by_cases hk : S k
    · rw [if_pos hk, restr_apply_pos hk]
    · rw [if_neg hk, restr_apply_neg hk, zero_mul]
  rw [← key]
  unfold mulAt
  rcases lt_or_ge r E.F.nrows with hr | hr
  · simp only [zv]
    rw [List_getD_eq_getElem _ _ (by simpa using hr)]
    simp
  · rw [zv_of_le _ (by simpa using hr)]
    rw [key]
    symm
    apply Finset.sum_eq_zero
    intro k _
    have : E.F.z E.p r k = 0 := by
      by_contra hc
      have := hE.z_lt hc
      rw [← hE.FOK.rows] at this
      omega
    rw [this, mul_zero]

theorem mulAt_len (p : ℕ) (F : Mat) (idx : List ℕ) (v : List Int) :
    (mulAt p F idx v).length = F.nrows := by simp [mulAt]

theorem mulAt_red {p : ℕ} (hp : 0 < p) (F : Mat) (idx : List ℕ) (v : List Int) :
    RedL p (mulAt p F idx v) := by
  intro x hx
  obtain ⟨i, -, rfl⟩ := List.mem_map.1 hx
  have h : (0 : Int) < p := by exact_mod_cast hp
  exact ⟨Int.emod_nonneg _ (by omega), Int.emod_lt_of_pos _ h⟩

theorem overwriteAt_len (idx : List ℕ) (t v : List Int) :
    (overwriteAt idx t v).length = t.length := by simp [overwriteAt]

theorem overwriteAt_red {p : ℕ} (hp : 0 < p) (idx : List ℕ) {t v : List Int} (ht : RedL p t)
    (hv : RedL p v) : RedL p (overwriteAt idx t v) := by
  intro x hx
  obtain ⟨i, -, rfl⟩ := List.mem_map.1 hx
  split
  · exact hv.getD hp i
  · exact ht.getD hp i

/-- Vectors with distinct last active positions are independent. -/
theorem indep_of_pivots {K : Type*} [Field K] {S : ℕ → Prop} {U : Finset ℕ} (v : ℕ → ℕ → K)
    (π : ℕ → ℕ) (hπ : ∀ j ∈ U, IsPivOn S (v j) (π j))
    (hinj : ∀ j ∈ U, ∀ j' ∈ U, π j = π j' → j = j') :
    LinearIndependent K fun j : U => restr S (v j) := by
  classical
  rw [linearIndependent_iff']
  intro s g hg i hi
  by_contra hne
  obtain ⟨m, hm, hmax⟩ := Finset.exists_max_image (s.filter fun j => g j ≠ 0) (fun j => π j.1)
    ⟨i, by simp [hi, hne]⟩
  have hms := (Finset.mem_filter.1 hm)
  obtain ⟨h1, h2, h3⟩ := hπ m.1 m.2
  have h := congrFun hg (π m.1)
  rw [Finset.sum_apply, Finset.sum_eq_single m] at h
  · simp only [Pi.smul_apply, restr_apply_pos h1, smul_eq_mul, Pi.zero_apply, mul_eq_zero] at h
    rcases h with h | h
    · exact hms.2 h
    · exact h2 h
  · intro j hj hjm
    by_cases hgj : g j = 0
    · simp [hgj]
    · have hle := hmax j (Finset.mem_filter.2 ⟨hj, hgj⟩)
      have hlt : π j.1 < π m.1 := lt_of_le_of_ne hle fun e =>
        hjm (Subtype.ext (hinj _ j.2 _ m.2 e))
      rw [Pi.smul_apply, restr_apply_pos h1, (hπ j.1 j.2).2.2 _ hlt h1, smul_zero]
  · intro h; exact absurd hms.1 h

/-- The history of the image survives the updates of a later radius. -/
theorem HistIm.update {E : IKEnv α} {st st' : IK α} {t : α} {U : Finset ℕ} {rad : α}
    (ht : t < rad) (h : HistIm E st t U)
    (hc : ∀ j, j < E.A.dim → (st'.piv j = st.piv j ∧ E.V st' j = E.V st j ∧
        st'.imDeath[j]? = st.imDeath[j]?) ∨
      (st'.piv j = -1 ∧ (∀ d, st'.imDeath[j]? = some d → d = rad) ∧
        (st.piv j = -1 → E.V st' j = E.V st j ∧ ¬ E.MonoDeath)) ∨
      (st.piv j ≠ -1 ∧ st'.piv j ≠ -1)) (hlen : E.A.dim = E.A.barcode.length) :
    HistIm E st' t U where
  act := h.act
  rank := h.rank
  kerv := h.kerv
  alive := by
    intro j hj hp d hd
    rcases hc j (hlen ▸ (h.act j hj).lt) with ⟨e1, -, e3⟩ | ⟨-, e2, -⟩ | ⟨-, e2⟩
    · exact h.alive j hj (e1 ▸ hp) d (e3 ▸ hd)
    · rw [e2 d hd]; exact ht
    · exact absurd hp e2
  dead := by
    intro j hb hj
    obtain ⟨h1, h2⟩ := h.dead j hb hj
    rcases hc j (hlen ▸ hb.lt) with ⟨e1, e2, -⟩ | ⟨e1, -, e3⟩ | ⟨e1, -⟩
    · exact ⟨e1.trans h1, fun r hr => by rw [e2]; exact h2 r hr⟩
    · exact ⟨e1, fun r hr => by rw [(e3 h1).1]; exact h2 r hr⟩
    · exact absurd h1 e1
  deadMono := by
    intro hm j hb hj d hd
    obtain ⟨h1, h2⟩ := h.dead j hb hj
    rcases hc j (hlen ▸ hb.lt) with ⟨e1, e2, e3⟩ | ⟨e1, -, e3⟩ | ⟨e1, -⟩
    · exact h.deadMono hm j hb hj d (e3 ▸ hd)
    · exact absurd hm (e3 h1).2
    · exact absurd h1 e1

/-- The history of the kernel survives a reduction. -/
theorem HistKer.update {E : IKEnv α} {st st' : IK α} {t : α} {W : Finset ℕ} {rad : α}
    (hp : E.p.Prime) (ht : t < rad) (h : HistKer E st t W) (c : ℕ) (a : ℕ → ZMod E.p)
    (hkd : st'.kdim = st.kdim) (hcr : st.rho c ≠ -1)
    (ho : ∀ k, k ≠ c → st'.rho k = st.rho k ∧ E.Kc st' k = E.Kc st k ∧
      st'.kerBar[k]? = st.kerBar[k]?)
    (hK : E.Kc st' c = E.Kc st c + ∑ i ∈ range c, a i • E.Kc st i)
    (ha : ∀ i, a i ≠ 0 → i < c → i < st.kdim ∧ st.rho i ≠ -1)
    (hcase : (st'.rho c ≠ -1 ∧ st'.kerBar[c]? = st.kerBar[c]?) ∨
      (st'.kerBar[c]? = (st.kerBar[c]?).map fun b => (b.1, rad)))
    (hmono : ∀ k k', k ≤ k' → k' < st.kdim → ∀ b b', st.kerBar[k]? = some b →
      st.kerBar[k']? = some b' → b.1 ≤ b'.1)
    (hlen : st.kdim ≤ st.kerBar.length) : HistKer E st' t W := by
  have := Fact.mk hp
  have hmem : ∀ k, KAlive st' t k ↔ KAlive st t k := by
    intro k
    unfold KAlive
    rw [hkd]
    by_cases hk : k = c
    · subst hk
      rcases hcase with ⟨h1, h2⟩ | h2
      · rw [h2]
        simp [h1, hcr]
      · rw [h2]
        constructor
        · rintro ⟨h3, b, h4, h5, -⟩
          rw [Option.map_eq_some_iff] at h4
          obtain ⟨b0, hb0, rfl⟩ := h4
          exact ⟨h3, b0, hb0, h5, fun h => absurd h hcr⟩
        · rintro ⟨h3, b, h4, h5, -⟩
          exact ⟨h3, (b.1, rad), by rw [h4]; rfl, h5, fun _ => ht⟩
    · obtain ⟨h1, -, h3⟩ := ho k hk
      rw [h1, h3]
  have hcW : ∀ i, a i ≠ 0 → i < c → c ∈ W → i ∈ W := by
    intro i hi hic hc
    obtain ⟨hk, b, hb, hbt, -⟩ := (h.mem c).1 hc
    obtain ⟨h1, h2⟩ := ha i hi hic
    rw [h.mem]
    have hil : i < st.kerBar.length := by omega
    refine ⟨h1, st.kerBar[i], List.getElem?_eq_getElem hil, ?_, fun h => absurd h h2⟩
    exact (hmono i c (by omega) hk _ _ (List.getElem?_eq_getElem hil) hb).trans hbt
  refine ⟨fun k => (h.mem k).trans (hmem k).symm, ?_, ?_, ?_⟩
  · refine indep_update (fun k => restr (ActBy (· ≤ t) E.A.barcode) (E.Kc st k)) h.indep c a c ?_
      (fun k => restr (ActBy (· ≤ t) E.A.barcode) (E.Kc st' k)) ?_ ?_
    · intro i hi hic
      exact ⟨by omega, hcW i hi hic⟩
    · rw [hK, map_add, map_sum]
      simp only [map_smul]
    · intro k hk
      rw [(ho k hk).2.1]
  · intro k hk
    by_cases hkc : k = c
    · subst hkc
      rw [hK, map_add, h.ker k hk, map_sum, zero_add]
      refine Finset.sum_eq_zero fun i hi => ?_
      rw [map_smul]
      by_cases hai : a i = 0
      · rw [hai, zero_smul]
      · rw [h.ker i (hcW i hai (mem_range.1 hi) hk), smul_zero]
    · rw [(ho k hkc).2.1]; exact h.ker k hk
  · intro k hk b hb hbt hkW
    rw [hkd] at hk
    by_cases hkc : k = c
    · subst hkc
      exfalso
      apply hkW
      rw [h.mem]
      have hkl : k < st.kerBar.length := by omega
      refine ⟨hk, st.kerBar[k], List.getElem?_eq_getElem hkl, ?_, fun h => absurd h hcr⟩
      rcases hcase with ⟨-, h2⟩ | h2
      · rw [h2, List.getElem?_eq_getElem hkl] at hb
        cases hb; exact hbt
      · rw [h2, List.getElem?_eq_getElem hkl] at hb
        cases hb; exact hbt
    · obtain ⟨h1, h2, h3⟩ := ho k hkc
      rw [h1, h2]
      exact h.dead k hk b (h3 ▸ hb) hbt hkW

/-- The history of the kernel survives the birth of a new generator. -/
theorem HistKer.birth {E : IKEnv α} {st st' : IK α} {t : α} {W : Finset ℕ} {rad : α}
    (ht : t < rad) (h : HistKer E st t W) (hkd : st'.kdim = st.kdim + 1)
    (ho : ∀ k, k < st.kdim → st'.rho k = st.rho k ∧ E.Kc st' k = E.Kc st k ∧
      st'.kerBar[k]? = st.kerBar[k]?)
    (hnew : ∀ b, st'.kerBar[st.kdim]? = some b → b.1 = rad) : HistKer E st' t W := by
  have hW : ∀ k, k ∈ W → k < st.kdim := fun k hk => ((h.mem k).1 hk).1
  refine ⟨?_, ?_, ?_, ?_⟩
  · intro k
    rw [h.mem]
    unfold KAlive
    rw [hkd]
    constructor
    · rintro ⟨h1, h2⟩
      obtain ⟨e1, -, e3⟩ := ho k h1
      rw [e1, e3]; exact ⟨by omega, h2⟩
    · rintro ⟨h1, b, h2, h3, h4⟩
      have hk : k < st.kdim := by
        by_contra hc
        have : k = st.kdim := by omega
        subst this
        exact absurd (hnew b h2 ▸ h3) (not_le.2 ht)
      obtain ⟨e1, -, e3⟩ := ho k hk
      exact ⟨hk, b, e3 ▸ h2, h3, e1 ▸ h4⟩
  · have : (fun k : W => restr (ActBy (· ≤ t) E.A.barcode) (E.Kc st' k)) =
        fun k : W => restr (ActBy (· ≤ t) E.A.barcode) (E.Kc st k) := by
      funext k; rw [(ho k (hW k k.2)).2.1]
    rw [this]; exact h.indep
  · intro k hk
    rw [(ho k (hW k hk)).2.1]; exact h.ker k hk
  · intro k hk b hb hbt hkW
    have hk' : k < st.kdim := by
      by_contra hc
      have : k = st.kdim := by omega
      subst this
      exact absurd (hnew b hb ▸ hbt) (not_le.2 ht)
    obtain ⟨e1, e2, e3⟩ := ho k hk'
    rw [e1, e2]
    exact h.dead k hk' b (e3 ▸ hb) hbt hkW

end Permaviss
