import Verif.Lemmas.Euler

/-!
# Euler characteristic and Morse inequalities (C81)
-/

namespace Permaviss

open Finset

attribute [-instance] instMulZeroClassOfSemiring

section

variable {α : Type} [LinearOrder α] [Zero α] {p : ℕ}

/-- The number of bars of degree `e` that contain `t`. -/
def homBars (hom : List (Basis α)) (e : ℕ) (t : α) : ℕ :=
  match hom[e]? with
  | some B => (B.barcode.filter fun b => decide (b.1 ≤ t ∧ t < b.2)).length
  | none => 0

/-- The number of simplices of degree `e` with radius at most `t`. -/
def simplicesUpTo (R : List (List α)) (e : ℕ) (t : α) : ℕ := ((R.getD e []).filter fun r => decide (r ≤ t)).length

/-- Entry `k` of the list is at most `t`. -/
def EntryLe (l : List α) (t : α) (k : ℕ) : Prop := ∃ r, l[k]? = some r ∧ r ≤ t

omit [Zero α] in
theorem card_born (R : List (List α)) (e : ℕ) (t : α) : Nat.card {i // Born R e i t} = simplicesUpTo R e t := by
  classical
  have hcount : ∀ l : List α, ((range l.length).filter (EntryLe l t)).card =
      (l.filter fun r => decide (r ≤ t)).length := by
    intro l
    induction l using List.reverseRecOn with
    | nil => simp
    | append_singleton l b ih =>
      rw [List.filter_append, List.length_append (as := List.filter _ l), ← ih, List.length_append,
        List.length_singleton, Finset.range_add_one, Finset.filter_insert]
      have hcong : (range l.length).filter (EntryLe (l ++ [b]) t) =
          (range l.length).filter (EntryLe l t) := by
        refine Finset.filter_congr fun k hk => ?_
        unfold EntryLe
        rw [List.getElem?_append_left (mem_range.1 hk)]
      rw [hcong]
      have hl : (l ++ [b])[l.length]? = some b := by simp
      by_cases hq : b ≤ t
      · rw [if_pos ⟨b, hl, hq⟩, Finset.card_insert_of_notMem (by simp)]
        simp [hq]
      · rw [if_neg (by rintro ⟨b', hb', h'⟩; rw [hl] at hb'; cases hb'; exact hq h')]
        simp [hq]
  unfold simplicesUpTo
  rw [← hcount]
  refine Nat.subtype_card _ fun k => ?_
  rw [Finset.mem_filter, Finset.mem_range]
  constructor
  · exact fun h => h.2
  · rintro ⟨b, hb, h'⟩
    exact ⟨(List.getElem?_eq_some_iff.1 hb).1, b, hb, h'⟩

/-- For a filtered complex: the alternating sum of the numbers of simplices minus the numbers of bars up to a degree
is not negative, and zero in the top degree. -/
theorem C81_morse {D : List Mat} {R : List (List α)} {maxRad : α} (hp : p.Prime) (rnd : α → α)
    (F : FiltComplex p D R maxRad) (out : PHOut α)
    (h : persistentHomology rnd p (R.getD 0 []).length D R maxRad = .ok out) {t : α} (ht : t < maxRad) :
    (∀ m ≤ D.length, 0 ≤ ∑ e ∈ range (m + 1), (-1 : Int) ^ (m + e) *
      ((simplicesUpTo R e t : Int) - homBars out.hom e t)) ∧
    ∑ e ∈ range (D.length + 1), (-1 : Int) ^ e * (simplicesUpTo R e t : Int) =
      ∑ e ∈ range (D.length + 1), (-1 : Int) ^ e * (homBars out.hom e t : Int) := by
  obtain ⟨out', hout, hol, -⟩ := C26_persistent_homology_total hp rnd F
  rw [h] at hout
  obtain rfl := Except.ok.inj hout
  have hbar : ∀ e ≤ D.length, Module.finrank (ZMod p) (homologyAt p D R e t) = homBars out.hom e t := by
    intro e he
    obtain ⟨B, hB⟩ : ∃ B, out.hom[e]? = some B := ⟨_, List.getElem?_eq_getElem (by omega)⟩
    rw [finrank_homologyAt hp F h hB ht]
    unfold homBars
    rw [hB]
  have hsum : ∀ m ≤ D.length, ∑ e ∈ range (m + 1), (-1 : Int) ^ (m + e) *
      ((simplicesUpTo R e t : Int) - homBars out.hom e t) = Module.finrank (ZMod p) (boundariesAt p D R m t) := by
    intro m hm
    rw [← morse_sum hp F t m]
    refine Finset.sum_congr rfl fun e he => ?_
    rw [card_born, hbar e (by have := Finset.mem_range.1 he; omega)]
  refine ⟨fun m hm => by rw [hsum m hm]; positivity, ?_⟩
  have htop := hsum D.length le_rfl
  rw [boundaries_top hp D.length le_rfl] at htop
  have hmul : ∑ e ∈ range (D.length + 1), (-1 : Int) ^ e * ((simplicesUpTo R e t : Int) - homBars out.hom e t) =
      (-1) ^ D.length * ∑ e ∈ range (D.length + 1), (-1 : Int) ^ (D.length + e) *
        ((simplicesUpTo R e t : Int) - homBars out.hom e t) := by
    rw [Finset.mul_sum]
    refine Finset.sum_congr rfl fun e _ => ?_
    rw [← mul_assoc, ← pow_add, show D.length + (D.length + e) = 2 * D.length + e by omega, pow_add, pow_mul]
    norm_num
  rw [htop] at hmul
  simp only [mul_sub, Finset.sum_sub_distrib] at hmul
  norm_num at hmul
  linarith

variable {Pt : Type}

/-- The number of simplices of dimension `e` of the Vietoris-Rips complex of the cloud at radius `t`: sets of `e + 1`
points with mutual distances at most `t`. -/
noncomputable def vrCount (pdist : List Pt → List (List α)) (cloud : List Pt) (e : ℕ) (t : α) : ℕ :=
  Nat.card {s // VRSimplex (cloudDist pdist cloud) cloud.length e t s}

/-- **C81**.  For every cloud and every radius `0 ≤ t < max_r`: the alternating sum of the numbers of bars that
contain `t` is the Euler characteristic of the Vietoris-Rips complex at `t` up to the dimension `max(max_dim, 1)`, and the
bars satisfy the Morse inequalities. -/
theorem C81_cloud (hp : p.Prime) (pdist : List Pt → List (List α)) (hd : IsPdist pdist) (argsort : List α → List Nat)
    (ha : IsArgsort argsort) (rnd : α → α) (cloud : List Pt) (maxR : α) (hmax : 0 < maxR) (maxDim : Int)
    (L : LocalOut α) (hL : localPersistentHomology pdist argsort rnd cloud maxR maxDim p = .ok L) (t : α) (ht : 0 ≤ t)
    (ht' : t < maxR) :
    (L.ph.hom.length : Int) = max maxDim 1 + 1 ∧
    (∀ m < L.ph.hom.length, 0 ≤ ∑ e ∈ range (m + 1), (-1 : Int) ^ (m + e) *
      ((vrCount pdist cloud e t : Int) - homBars L.ph.hom e t)) ∧
    ∑ e ∈ range L.ph.hom.length, (-1 : Int) ^ e * (vrCount pdist cloud e t : Int) =
      ∑ e ∈ range L.ph.hom.length, (-1 : Int) ^ e * (homBars L.ph.hom e t : Int) := by
  obtain ⟨Dist, D, out, h0, hlen, hpos, hD, F, hout, hol, hDm, hDl, h3⟩ := local_run hp hd ha rnd cloud hmax maxDim
  rw [hL] at h3
  cases h3
  have hc : ∀ e ≤ D.length, vrCount pdist cloud e t =
      simplicesUpTo (vietorisRips argsort Dist maxR maxDim).allRads e t := by
    intro e he
    unfold vrCount cloudDist
    rw [h0, ← hlen, ← card_vr (maxDim := maxDim) ha hpos ht ht' (by omega), card_born]
  obtain ⟨m1, m2⟩ := C81_morse hp rnd F out hout ht'
  have hs : ∀ m, m ≤ D.length → ∀ f : ℕ → Int, ∑ e ∈ range (m + 1), f e * ((vrCount pdist cloud e t : Int) - homBars out.hom e t) =
      ∑ e ∈ range (m + 1), f e * ((simplicesUpTo (vietorisRips argsort Dist maxR maxDim).allRads e t : Int) -
        homBars out.hom e t) := by
    intro m hm f
    refine Finset.sum_congr rfl fun e he => ?_
    rw [hc e (by have := Finset.mem_range.1 he; omega)]
  refine ⟨by dsimp only; rw [hol]; push_cast; omega, fun m hm => ?_, ?_⟩
  · dsimp only at hm ⊢
    rw [hs m (by omega)]
    exact m1 m (by omega)
  · dsimp only
    rw [hol, ← m2]
    refine Finset.sum_congr rfl fun e he => ?_
    rw [hc e (by have := Finset.mem_range.1 he; omega)]

end

/-- A square at radius one: four points and four edges, one component and one loop. -/
example : ((localPersistentHomology (fun _ : List Nat => [[0, 1, 2, 1], [1, 0, 1, 2], [2, 1, 0, 1],
    [1, 2, 1, (0 : Int)]]) stableArgsort id [0, 1, 2, 3] 5 2 3).map fun L =>
    ((List.range 3).map fun e => simplicesUpTo L.cpx.allRads e 1, (List.range 3).map fun e => homBars L.ph.hom e 1)) =
    .ok ([4, 4, 0], [1, 1, 0]) := by decide

end Permaviss
