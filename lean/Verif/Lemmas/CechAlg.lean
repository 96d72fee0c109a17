import Verif.Lemmas.CechVal

/-! The Čech differential squares to zero and anticommutes with the vertical boundary. -/

namespace Permaviss

open Finset

attribute [-instance] instMulZeroClassOfSemiring

variable {α : Type} [LinearOrder α] [Zero α] {rnd : α → α} {ρ : List ℕ → α} {E : SSEnv α}

/-- A sum over the positions of a list without repetition. -/
theorem sum_pos {R β : Type} [AddCommMonoid R] [DecidableEq β] {L : List β} (hL : L.Nodup) (v : β)
    (f : ℕ → R) (x : R) (hx : v ∈ L → ∀ i, L[i]? = some v → f i = x) :
    ∑ i ∈ range L.length, (if some v = L[i]? then f i else 0) = if v ∈ L then x else 0 := by
  by_cases hv : v ∈ L
  · rw [if_pos hv]
    obtain ⟨i, hi, rfl⟩ := List.getElem_of_mem hv
    rw [Finset.sum_eq_single i]
    · rw [List.getElem?_eq_getElem hi, if_pos rfl]
      exact hx hv i (List.getElem?_eq_getElem hi)
    · intro b hb hbi
      rw [if_neg]
      intro e
      rw [List.getElem?_eq_getElem (mem_range.1 hb)] at e
      exact hbi ((List.Nodup.getElem_inj_iff hL).1 (Option.some.inj e)).symm
    · intro hn; exact absurd (mem_range.2 hi) hn
  · rw [if_neg hv]
    refine Finset.sum_eq_zero fun i hi => ?_
    rw [if_neg]
    intro e
    exact hv (List.mem_of_getElem? e.symm)

/-- Two steps of the Čech differential. -/
theorem cech_cech (h : SSOK rnd E ρ) {n deg : ℕ} {D D' : Mat} (hD : E.nerveDiff[n]? = some D)
    (hD' : E.nerveDiff[n + 1]? = some D') (hn : n + 2 < E.columns.length) (hdeg : deg ≤ E.rows) {k j : ℕ}
    (hk : k < E.spx n) (hj : j < (E.G n k deg).length) (c : ℕ → ℕ → ZMod E.p) :
    ∑ l ∈ range (E.spx (n + 1)), ∑ i ∈ range (E.G (n + 1) l deg).length,
      cechCoef E D n deg k l j i * (∑ m ∈ range (E.spx (n + 2)), ∑ a ∈ range (E.G (n + 2) m deg).length,
        cechCoef E D' (n + 1) deg l m i a * c m a) = 0 := by
  have key : ∀ l ∈ range (E.spx (n + 1)), ∀ m ∈ range (E.spx (n + 2)),
      ∀ a ∈ range (E.G (n + 2) m deg).length,
      ∑ i ∈ range (E.G (n + 1) l deg).length,
        cechCoef E D n deg k l j i * cechCoef E D' (n + 1) deg l m i a =
      if (E.G n k deg)[j]? = (E.G (n + 2) m deg)[a]? then D.z E.p k l * D'.z E.p l m else 0 := by
    intro l hl m hm a ha
    have hl' := mem_range.1 hl
    have hm' := mem_range.1 hm
    have ha' := mem_range.1 ha
    rw [List.getElem?_eq_getElem hj, List.getElem?_eq_getElem ha']
    by_cases hz : D'.get l m = 0
    · have : D'.z E.p l m = 0 := by simp [Mat.z, hz]
      rw [this, mul_zero, ite_self]
      refine Finset.sum_eq_zero fun i _ => ?_
      unfold cechCoef
      rw [this]; simp
    · have hsub := h.G_sub hD' (by omega) hl' hm' hz hdeg
      have hmem : (E.G (n + 2) m deg)[a] ∈ E.G (n + 1) l deg := hsub (List.getElem_mem ha')
      have e : ∀ i ∈ range (E.G (n + 1) l deg).length,
          cechCoef E D n deg k l j i * cechCoef E D' (n + 1) deg l m i a =
          if some (E.G (n + 2) m deg)[a] = (E.G (n + 1) l deg)[i]? then
            (if (E.G n k deg)[j] = (E.G (n + 2) m deg)[a] then D.z E.p k l * D'.z E.p l m else 0)
          else 0 := by
        intro i _
        unfold cechCoef
        rw [List.getElem?_eq_getElem hj, List.getElem?_eq_getElem ha']
        by_cases h1 : some (E.G (n + 2) m deg)[a] = (E.G (n + 1) l deg)[i]?
        · rw [if_pos h1, if_pos h1.symm, ← h1]
          by_cases h2 : (E.G n k deg)[j] = (E.G (n + 2) m deg)[a]
          · rw [if_pos h2, if_pos (congrArg some h2)]
            have : ((-1 : ZMod E.p) ^ deg) * (-1) ^ deg = 1 := by
              rw [← mul_pow]; simp
            calc D.z E.p k l * (-1) ^ deg * (D'.z E.p l m * (-1) ^ deg)
                = D.z E.p k l * D'.z E.p l m * ((-1) ^ deg * (-1) ^ deg) := by ring
              _ = _ := by rw [this, mul_one]
          · rw [if_neg h2, if_neg fun e => h2 (Option.some.inj e), zero_mul]
        · rw [if_neg h1, if_neg (c := (E.G (n + 1) l deg)[i]? = some (E.G (n + 2) m deg)[a])
            (fun e => h1 e.symm), mul_zero]
      rw [Finset.sum_congr rfl e, sum_pos (h.G_nodup (by omega) hl' deg) _ _ _ (fun _ _ _ => rfl),
        if_pos hmem]
      simp only [Option.some.injEq]
  calc _ = ∑ l ∈ range (E.spx (n + 1)), ∑ m ∈ range (E.spx (n + 2)),
        ∑ a ∈ range (E.G (n + 2) m deg).length,
        (∑ i ∈ range (E.G (n + 1) l deg).length,
          cechCoef E D n deg k l j i * cechCoef E D' (n + 1) deg l m i a) * c m a := by
        refine Finset.sum_congr rfl fun l _ => ?_
        simp only [Finset.mul_sum, Finset.sum_mul]
        rw [Finset.sum_comm]
        refine Finset.sum_congr rfl fun m _ => ?_
        rw [Finset.sum_comm]
        refine Finset.sum_congr rfl fun a _ => Finset.sum_congr rfl fun i _ => ?_
        ring
    _ = ∑ l ∈ range (E.spx (n + 1)), ∑ m ∈ range (E.spx (n + 2)),
        ∑ a ∈ range (E.G (n + 2) m deg).length,
        (if (E.G n k deg)[j]? = (E.G (n + 2) m deg)[a]? then D.z E.p k l * D'.z E.p l m else 0) *
          c m a := by
        refine Finset.sum_congr rfl fun l hl => Finset.sum_congr rfl fun m hm =>
          Finset.sum_congr rfl fun a ha => ?_
        rw [key l hl m hm a ha]
    _ = ∑ m ∈ range (E.spx (n + 2)), ∑ a ∈ range (E.G (n + 2) m deg).length,
        (if (E.G n k deg)[j]? = (E.G (n + 2) m deg)[a]? then
          ∑ l ∈ range (E.spx (n + 1)), D.z E.p k l * D'.z E.p l m else 0) * c m a := by
        rw [Finset.sum_comm]
        refine Finset.sum_congr rfl fun m _ => ?_
        rw [Finset.sum_comm]
        refine Finset.sum_congr rfl fun a _ => ?_
        rw [← Finset.sum_mul]
        congr 1
        split
        · rfl
        · simp
    _ = 0 := by
        refine Finset.sum_eq_zero fun m _ => Finset.sum_eq_zero fun a _ => ?_
        have := h.dd n D D' hD hD' k m
        rw [(h.shape n D hD).2] at this
        rw [this]; simp

/-! ## The vertical boundary -/

/-- The entry of the vertical differential of piece `k` of column `n`, from degree `deg + 1` to
`deg`. -/
def vertCoef (E : SSEnv α) (n k deg j i : ℕ) : ZMod E.p :=
  match E.piece n k with
  | .ok o => (o.diff.getD deg ⟨0, []⟩).z E.p j i
  | .error _ => 0

/-- The coefficient of a face. -/
def faceCoef (p deg : ℕ) (t s : List ℕ) : ZMod p :=
  ∑ q ∈ range s.length, if t = s.eraseIdx q then bdrySign p deg * (-1) ^ q else 0

theorem faceCoef_eq_zero {p deg : ℕ} {t s : List ℕ} (h : ∀ q < s.length, t ≠ s.eraseIdx q) :
    faceCoef p deg t s = 0 :=
  Finset.sum_eq_zero fun q hq => if_neg (h q (mem_range.1 hq))

theorem PieceOK.diff_entry {p rows : ℕ} {maxR : α} {o : LocalOut α} {pts : List ℕ}
    (hp : 2 ≤ p) (h : PieceOK rnd p rows maxR ρ o pts) {deg : ℕ} (hdeg : deg < o.cpx.simplices.length) :
    (o.diff.getD deg ⟨0, []⟩).nrows = (o.glob pts deg).length ∧
    (o.diff.getD deg ⟨0, []⟩).ncols = (o.glob pts (deg + 1)).length ∧
    ∀ j i, j < (o.glob pts deg).length → i < (o.glob pts (deg + 1)).length →
      (o.diff.getD deg ⟨0, []⟩).z p j i =
        faceCoef p deg ((o.glob pts deg).getD j []) ((o.glob pts (deg + 1)).getD i []) := by
  obtain ⟨n', hd⟩ := h.diff
  obtain ⟨M, hM, hr, hc, hent⟩ := entry_spec hp h.cpx hd hdeg
  have e : o.diff.getD deg ⟨0, []⟩ = M := by rw [List.getD_eq_getElem?_getD, hM]; rfl
  have l0 : (o.glob pts deg).length = (simplicesOf o.cpx.verts o.cpx.simplices deg).length := by
    simp [LocalOut.glob]
  have l1 : (o.glob pts (deg + 1)).length =
      (simplicesOf o.cpx.verts o.cpx.simplices (deg + 1)).length := by simp [LocalOut.glob]
  rw [e]
  refine ⟨by rw [hr, l0], by rw [hc, l1], fun j i hj hi => ?_⟩
  rw [l0] at hj
  rw [l1] at hi
  obtain ⟨g1, g2⟩ := hent j i (by rw [hr]; exact hj) (by rw [hc]; exact hi)
  unfold LocalOut.glob
  rw [getD_map_lt hj, getD_map_lt hi]
  rw [List_getD_eq_getElem _ _ hj, List_getD_eq_getElem _ _ hi] at g1 g2
  set t := (simplicesOf o.cpx.verts o.cpx.simplices deg)[j] with ht
  set s := (simplicesOf o.cpx.verts o.cpx.simplices (deg + 1))[i] with hs
  obtain ⟨t1, t2, t3⟩ := h.simplex (List.getElem_mem hj)
  obtain ⟨s1, s2, s3⟩ := h.simplex (List.getElem_mem hi)
  have hiff : ∀ q, t.map (fun v => pts.getD v 0) = (s.map fun v => pts.getD v 0).eraseIdx q ↔
      t = s.eraseIdx q := by
    intro q
    rw [List.eraseIdx_map]
    constructor
    · intro e
      exact map_getD_inj h.inc t3 (fun v hv => s3 v ((List.eraseIdx_sublist s q).subset hv)) e
    · intro e; rw [e]
  by_cases hex : ∃ q, q < s.length ∧ t = s.eraseIdx q
  · obtain ⟨q, hq, hqe⟩ := hex
    rw [g1 q hq hqe]
    unfold faceCoef
    rw [Finset.sum_eq_single q]
    · rw [if_pos ((hiff q).2 hqe)]
    · intro b hb hbq
      rw [if_neg]
      intro e'
      have hb' : b < s.length := by simpa using hb
      exact hbq (eraseIdx_inj s2 hb' hq (((hiff b).1 e').symm.trans hqe))
    · intro hn; exact absurd (mem_range.2 (by simpa using hq)) hn
  · push Not at hex
    rw [g2 hex, faceCoef_eq_zero]
    intro q hq e'
    exact hex q (by simpa using hq) ((hiff q).1 e')

theorem vertCoef_eq (h : SSOK rnd E ρ) {n k deg j i : ℕ} (hn : n < E.columns.length)
    (hk : k < E.spx n) (hdeg : deg < E.rows) (hj : j < (E.G n k deg).length)
    (hi : i < (E.G n k (deg + 1)).length) :
    vertCoef E n k deg j i =
      faceCoef E.p deg ((E.G n k deg).getD j []) ((E.G n k (deg + 1)).getD i []) := by
  obtain ⟨o, pts, ho, hpts, hP⟩ := h.piece n hn k hk
  have hG : ∀ d, E.G n k d = o.glob pts d := fun d => by simp only [SSEnv.G, ho, hpts]
  rw [hG, hG] at *
  have : vertCoef E n k deg j i = (o.diff.getD deg ⟨0, []⟩).z E.p j i := by
    simp only [vertCoef, ho]
  rw [this]
  exact (hP.diff_entry h.prime.two_le (by have := hP.levels; omega)).2.2 j i hj hi

theorem SSOK.G_face (h : SSOK rnd E ρ) {n k deg : ℕ} (hn : n < E.columns.length)
    (hk : k < E.spx n) {s : List ℕ} (hs : s ∈ E.G n k (deg + 1)) {q : ℕ} (hq : q < s.length) :
    s.eraseIdx q ∈ E.G n k deg := by
  obtain ⟨o, pts, ho, hpts, hP⟩ := h.piece n hn k hk
  have hG : ∀ d, E.G n k d = o.glob pts d := fun d => by simp only [SSEnv.G, ho, hpts]
  rw [hG] at *
  exact hP.face hs hq

/-- The Čech differential anticommutes with the vertical boundary. -/
theorem cech_vert (h : SSOK rnd E ρ) {n deg : ℕ} {D : Mat} (hD : E.nerveDiff[n]? = some D)
    (hn : n + 1 < E.columns.length) (hdeg : deg < E.rows) {k j : ℕ}
    (hk : k < E.spx n) (hj : j < (E.G n k deg).length) (c : ℕ → ℕ → ZMod E.p) :
    ∑ l ∈ range (E.spx (n + 1)), ∑ i ∈ range (E.G (n + 1) l deg).length,
      cechCoef E D n deg k l j i *
        (∑ a ∈ range (E.G (n + 1) l (deg + 1)).length, vertCoef E (n + 1) l deg i a * c l a) +
    ∑ b ∈ range (E.G n k (deg + 1)).length, vertCoef E n k deg j b *
      (∑ l ∈ range (E.spx (n + 1)), ∑ a ∈ range (E.G (n + 1) l (deg + 1)).length,
        cechCoef E D n (deg + 1) k l b a * c l a) = 0 := by
  have key : ∀ l ∈ range (E.spx (n + 1)), ∀ a ∈ range (E.G (n + 1) l (deg + 1)).length,
      ∑ i ∈ range (E.G (n + 1) l deg).length,
        cechCoef E D n deg k l j i * vertCoef E (n + 1) l deg i a +
      ∑ b ∈ range (E.G n k (deg + 1)).length,
        vertCoef E n k deg j b * cechCoef E D n (deg + 1) k l b a = 0 := by
    intro l hl a ha
    have hl' := mem_range.1 hl
    have ha' := mem_range.1 ha
    by_cases hz : D.get k l = 0
    · have hz' : D.z E.p k l = 0 := by simp [Mat.z, hz]
      have : ∀ d x y, cechCoef E D n d k l x y = 0 := by
        intro d x y
        unfold cechCoef
        rw [hz']; simp
      rw [Finset.sum_eq_zero fun i _ => by rw [this, zero_mul],
        Finset.sum_eq_zero fun i _ => by rw [this, mul_zero], add_zero]
    · set s := (E.G (n + 1) l (deg + 1))[a] with hs
      have hsd : (E.G (n + 1) l (deg + 1)).getD a [] = s := List_getD_eq_getElem _ _ ha'
      have hsm : s ∈ E.G (n + 1) l (deg + 1) := List.getElem_mem ha'
      have hsk : s ∈ E.G n k (deg + 1) := h.G_sub hD hn hk hl' hz (by omega) hsm
      set t := (E.G n k deg)[j] with ht
      have htd : (E.G n k deg).getD j [] = t := List_getD_eq_getElem _ _ hj
      have e1 : ∑ i ∈ range (E.G (n + 1) l deg).length,
          cechCoef E D n deg k l j i * vertCoef E (n + 1) l deg i a =
          D.z E.p k l * (-1) ^ deg * faceCoef E.p deg t s := by
        have : ∀ i ∈ range (E.G (n + 1) l deg).length,
            cechCoef E D n deg k l j i * vertCoef E (n + 1) l deg i a =
            if some t = (E.G (n + 1) l deg)[i]? then
              D.z E.p k l * (-1) ^ deg * vertCoef E (n + 1) l deg i a else 0 := by
          intro i _
          unfold cechCoef
          rw [List.getElem?_eq_getElem hj]
          split <;> simp
        rw [Finset.sum_congr rfl this, sum_pos (h.G_nodup (by omega) hl' deg) t _
          (D.z E.p k l * (-1) ^ deg * faceCoef E.p deg t s)]
        · split
          · rfl
          · next hn' =>
            rw [faceCoef_eq_zero, mul_zero]
            intro q hq e
            exact hn' (e ▸ h.G_face hn hl' hsm hq)
        · intro _ i hi
          obtain ⟨hi', hie⟩ := List.getElem?_eq_some_iff.1 hi
          rw [vertCoef_eq h hn hl' hdeg hi' ha', hsd, List_getD_eq_getElem _ _ hi', hie]
      have e2 : ∑ b ∈ range (E.G n k (deg + 1)).length,
          vertCoef E n k deg j b * cechCoef E D n (deg + 1) k l b a =
          D.z E.p k l * (-1) ^ (deg + 1) * faceCoef E.p deg t s := by
        have : ∀ b ∈ range (E.G n k (deg + 1)).length,
            vertCoef E n k deg j b * cechCoef E D n (deg + 1) k l b a =
            if some s = (E.G n k (deg + 1))[b]? then
              D.z E.p k l * (-1) ^ (deg + 1) * vertCoef E n k deg j b else 0 := by
          intro b _
          unfold cechCoef
          rw [List.getElem?_eq_getElem ha']
          by_cases hb : some s = (E.G n k (deg + 1))[b]?
          · rw [if_pos hb, if_pos hb.symm]; ring
          · rw [if_neg hb, if_neg fun e => hb e.symm, mul_zero]
        rw [Finset.sum_congr rfl this, sum_pos (h.G_nodup (by omega) hk (deg + 1)) s _
          (D.z E.p k l * (-1) ^ (deg + 1) * faceCoef E.p deg t s), if_pos hsk]
        intro _ i hi
        obtain ⟨hi', hie⟩ := List.getElem?_eq_some_iff.1 hi
        rw [vertCoef_eq h (by omega) hk hdeg hj hi', htd, List_getD_eq_getElem _ _ hi', hie]
      rw [e1, e2, pow_succ]
      ring
  have e1 : ∑ l ∈ range (E.spx (n + 1)), ∑ i ∈ range (E.G (n + 1) l deg).length,
      cechCoef E D n deg k l j i *
        (∑ a ∈ range (E.G (n + 1) l (deg + 1)).length, vertCoef E (n + 1) l deg i a * c l a) =
      ∑ l ∈ range (E.spx (n + 1)), ∑ a ∈ range (E.G (n + 1) l (deg + 1)).length,
        (∑ i ∈ range (E.G (n + 1) l deg).length,
          cechCoef E D n deg k l j i * vertCoef E (n + 1) l deg i a) * c l a := by
    refine Finset.sum_congr rfl fun l _ => ?_
    simp only [Finset.mul_sum, Finset.sum_mul]
    rw [Finset.sum_comm]
    refine Finset.sum_congr rfl fun a _ => Finset.sum_congr rfl fun i _ => ?_
    ring
  have e2 : ∑ b ∈ range (E.G n k (deg + 1)).length, vertCoef E n k deg j b *
      (∑ l ∈ range (E.spx (n + 1)), ∑ a ∈ range (E.G (n + 1) l (deg + 1)).length,
        cechCoef E D n (deg + 1) k l b a * c l a) =
      ∑ l ∈ range (E.spx (n + 1)), ∑ a ∈ range (E.G (n + 1) l (deg + 1)).length,
        (∑ b ∈ range (E.G n k (deg + 1)).length,
          vertCoef E n k deg j b * cechCoef E D n (deg + 1) k l b a) * c l a := by
    simp only [Finset.mul_sum, Finset.sum_mul]
    rw [Finset.sum_comm]
    refine Finset.sum_congr rfl fun l _ => ?_
    rw [Finset.sum_comm]
    refine Finset.sum_congr rfl fun a _ => Finset.sum_congr rfl fun i _ => ?_
    ring
  rw [e1, e2, ← Finset.sum_add_distrib]
  refine Finset.sum_eq_zero fun l hl => ?_
  rw [← Finset.sum_add_distrib]
  refine Finset.sum_eq_zero fun a ha => ?_
  rw [← add_mul, key l hl a ha, zero_mul]

end Permaviss
