import Verif.Lemmas.PHBasis
import Verif.Spec.Bars

/-!
# Properties of `persistent_homology` (C21–C26)

Throughout, `F : FiltComplex p D R maxRad` says that the input is a filtered complex (the hypothesis
is satisfied by the output of `vietoris_rips` and `complex_differentials`, see `C27`).
-/

namespace Permaviss

open Finset

variable {α : Type} [LinearOrder α] [Zero α] {p : ℕ}

section

variable {maxRad : α} {D : List Mat} {R : List (List α)} {P : ℕ → List Nat}
  {rts : ℕ → List (List Int × List Int)} {fin : ℕ → List (BarCol α)} {levels : List (PHLevel α)}

omit [Zero α] in
theorem born_iff [Zero α] {e j : ℕ} {t : α} : Born R e j t ↔ j < nn R e ∧ bR R e j ≤ t := by
  unfold Born bR nn
  constructor
  · rintro ⟨r, hr, h⟩
    obtain ⟨hj, rfl⟩ := List.getElem?_eq_some_iff.1 hr
    rw [List_getD_eq_getElem _ _ hj]
    exact ⟨hj, h⟩
  · rintro ⟨hj, h⟩
    rw [List_getD_eq_getElem _ _ hj] at h
    exact ⟨_, List.getElem?_eq_getElem hj, h⟩

theorem alive_iff [Fact p.Prime] (F : FiltComplex p D R maxRad)
    (H : PHTrace p maxRad D R P rts fin levels)
    (M : Matching (K := ZMod p) (bdry p D) (nn R) (fun e => {j | j ∈ P e})
      (fun e j => kap (nn R (e + 1)) (P (e + 1)) (rts e) j)
      (fun e j => zv p (colOf (nn R) P rts e j)))
    (Fl : Filt (K := ZMod p) (bdry p D) (nn R) (fun e i (t : α) => Born R e i t))
    {e : ℕ} {keys : List ℕ} (hk : KeysOK p maxRad D R P rts e keys) {t : α} (ht : t < maxRad)
    (j : ℕ) : M.Alive Fl e j t ↔ j ∈ keys ∧ bR R e j ≤ t ∧ t < dR maxRad R P rts e j := by
  unfold Matching.Alive
  dsimp only
  rw [hk.mem, born_iff]
  by_cases hP : j ∈ P e
  · have hκ := (H.kap_spec F hP).1
    have : (j ∈ {j | j ∈ P e} ∧ Born R (e + 1) (kap (nn R (e + 1)) (P (e + 1)) (rts e) j) t) ↔
        dR maxRad R P rts e j ≤ t := by
      rw [born_iff, dR, if_pos hP]
      exact ⟨fun h => h.2.2, fun h => ⟨hP, hκ, h⟩⟩
    rw [this, not_le]
    constructor
    · rintro ⟨⟨h1, h2⟩, h3, h4⟩
      exact ⟨⟨h1, h3, lt_of_le_of_lt h2 h4⟩, h2, h4⟩
    · rintro ⟨⟨h1, h3, -⟩, h2, h4⟩
      exact ⟨⟨h1, h2⟩, h3, h4⟩
  · have hd : dR maxRad R P rts e j = maxRad := by rw [dR, if_neg hP]
    rw [hd]
    constructor
    · rintro ⟨⟨h1, h2⟩, h3, -⟩
      exact ⟨⟨h1, h3, lt_of_le_of_lt h2 ht⟩, h2, ht⟩
    · rintro ⟨⟨h1, h3, -⟩, h2, h4⟩
      exact ⟨⟨h1, h2⟩, h3, fun h => hP h.1⟩

end

/-- A basis whose columns are given by keys. -/
theorem HomOK.get {rnd : α → α} {n : ℕ} {bar : ℕ → BarCol α} {keys : List ℕ} {B : Basis α}
    (h : HomOK rnd n bar keys B) {k : ℕ} {b : α × α} (hb : B.barcode[k]? = some b) :
    ∃ j, keys[k]? = some j ∧ b = (bar j).1 ∧ B.chain p k = zv p (bar j).2 := by
  rw [h.bars, List.getElem?_map, Option.map_eq_some_iff] at hb
  obtain ⟨j, hj, rfl⟩ := hb
  refine ⟨j, hj, rfl, ?_⟩
  unfold Basis.chain
  rw [h.cols, List.getD_eq_getElem?_getD, List.getElem?_map, hj]; rfl

variable {maxRad : α} {D : List Mat} {R : List (List α)}

/-- **C21–C26.** On a filtered complex `persistent_homology` does not raise. -/
theorem C26_persistent_homology_total (hp : p.Prime) (rnd : α → α) (F : FiltComplex p D R maxRad) :
    ∃ out, persistentHomology rnd p (R.getD 0 []).length D R maxRad = .ok out ∧
      out.hom.length = D.length + 1 ∧ out.im.length = D.length + 1 ∧
      out.preIm.length = D.length + 1 := by
  obtain ⟨out, P, rts, fin, levels, h, -, S⟩ := persistentHomology_spec hp rnd F
  exact ⟨out, h, S.homlen, S.imlen, S.prelen⟩

/-- The specification of a given run. -/
theorem run_spec (hp : p.Prime) (rnd : α → α) (F : FiltComplex p D R maxRad) {out : PHOut α}
    (h : persistentHomology rnd p (R.getD 0 []).length D R maxRad = .ok out) :
    ∃ P rts fin levels, PHTrace p maxRad D R P rts fin levels ∧
      PHSpec p rnd maxRad D R P rts out := by
  obtain ⟨out', P, rts, fin, levels, h', H, S⟩ := persistentHomology_spec hp rnd F
  rw [h] at h'
  cases h'
  exact ⟨P, rts, fin, levels, H, S⟩

/-- The basis in degree `e` of a given run. -/
theorem hom_spec {P : ℕ → List Nat} {rts : ℕ → List (List Int × List Int)} {rnd : α → α}
    {out : PHOut α} (S : PHSpec p rnd maxRad D R P rts out) {e : ℕ} {B : Basis α}
    (hB : out.hom[e]? = some B) : ∃ keys, KeysOK p maxRad D R P rts e keys ∧
      HomOK rnd (nn R e) (keyBar maxRad R P rts e) keys B := by
  have he : e ≤ D.length := by
    have := (List.getElem?_eq_some_iff.1 hB).1
    have := S.homlen
    omega
  obtain ⟨B', keys, h1, h2, h3⟩ := S.hom e he
  rw [hB] at h1; cases h1
  exact ⟨keys, h2, h3⟩

/-- **C21.** Representatives are cycles, supported on simplices present at the birth of their bar,
and not on those present at any earlier radius. -/
theorem C21_representatives_are_cycles (hp : p.Prime) (rnd : α → α) (F : FiltComplex p D R maxRad)
    (out : PHOut α) (h : persistentHomology rnd p (R.getD 0 []).length D R maxRad = .ok out)
    (e : ℕ) (B : Basis α) (hB : out.hom[e]? = some B) (k : ℕ) (b : α × α)
    (hb : B.barcode[k]? = some b) :
    bdry p D e (B.chain p k) = 0 ∧ B.chain p k ∈ chainsAt p R e b.1 ∧
      ∀ s, s < b.1 → B.chain p k ∉ chainsAt p R e s := by
  obtain ⟨P, rts, fin, levels, H, S⟩ := run_spec hp rnd F h
  obtain ⟨keys, hk, hok⟩ := hom_spec S hB
  obtain ⟨j, hj, rfl, e2⟩ := hok.get (p := p) hb
  have hjk := (hk.mem j).1 (List.mem_of_getElem? hj)
  have := Fact.mk hp
  have M := H.matching F hp
  have hpv := M.piv e j hjk.1
  rw [e2]
  refine ⟨hjk.2.1, ?_, ?_⟩
  · exact M.basis_mem (F.filt hp) e j _ (born_iff.2 ⟨hjk.1, le_rfl⟩)
  · intro s hs hc
    have := (born_iff.1 (hc j hpv.1)).2
    exact absurd hs (not_lt.2 this)

/-- **C22.** If a bar dies below `maxRad` its representative is the boundary of a chain present at
its death, and of no chain present at an earlier radius. -/
theorem C22_finite_bars_die_as_boundaries (hp : p.Prime) (rnd : α → α)
    (F : FiltComplex p D R maxRad) (out : PHOut α)
    (h : persistentHomology rnd p (R.getD 0 []).length D R maxRad = .ok out)
    (e : ℕ) (B : Basis α) (hB : out.hom[e]? = some B) (k : ℕ) (b : α × α)
    (hb : B.barcode[k]? = some b) :
    (b.2 < maxRad → B.chain p k ∈ boundariesAt p D R e b.2) ∧
      ∀ t, t < b.2 → B.chain p k ∉ boundariesAt p D R e t := by
  obtain ⟨P, rts, fin, levels, H, S⟩ := run_spec hp rnd F h
  obtain ⟨keys, hk, hok⟩ := hom_spec S hB
  obtain ⟨j, hj, rfl, e2⟩ := hok.get (p := p) hb
  have hjk := (hk.mem j).1 (List.mem_of_getElem? hj)
  have := Fact.mk hp
  have M := H.matching F hp
  rw [e2]
  refine ⟨fun hd => ?_, fun t ht hc => ?_⟩
  · have hP : j ∈ P e := by
      by_contra hP
      simp only [keyBar, dR, if_neg hP, lt_irrefl] at hd
    refine ⟨_, M.basis_mem (F.filt hp) (e + 1) (kap (nn R (e + 1)) (P (e + 1)) (rts e) j) _ ?_,
      (M.eq e j hP).symm⟩
    refine born_iff.2 ⟨(H.kap_spec F hP).1, ?_⟩
    simp only [keyBar, dR, if_pos hP]; exact le_rfl
  · have := M.alive_indep (F.filt hp) e t (Pi.single j 1) (fun i hi => by
      have hij : i = j := by
        by_contra hne
        exact hi (Pi.single_eq_of_ne hne 1)
      subst hij
      rintro ⟨h1, h2⟩
      have := (born_iff.1 h2).2
      simp only [keyBar, dR, if_pos (show i ∈ P e from h1)] at ht
      exact absurd ht (not_lt.2 this)) (by
        obtain ⟨x, hx, hx'⟩ := hc
        refine ⟨x, hx, hx'.trans ?_⟩
        rw [Finset.sum_eq_single j]
        · simp [keyBar]
        · intro i _ hne; rw [Pi.single_eq_of_ne hne, zero_smul]
        · intro hn; exact absurd (mem_range.2 hjk.1) hn) j hjk.1
    rw [Pi.single_eq_same] at this
    exact one_ne_zero this

/-- Positions of alive bars correspond to alive keys. -/
theorem aliveEquiv (hp : p.Prime) {rnd : α → α} (F : FiltComplex p D R maxRad) {P : ℕ → List Nat}
    {rts : ℕ → List (List Int × List Int)} {fin : ℕ → List (BarCol α)} {levels : List (PHLevel α)}
    (H : PHTrace p maxRad D R P rts fin levels) {e : ℕ} {B : Basis α} {keys : List ℕ}
    (hk : KeysOK p maxRad D R P rts e keys)
    (hok : HomOK rnd (nn R e) (keyBar maxRad R P rts e) keys B) (s t : α) (hst : s ≤ t)
    (ht : t < maxRad) :
    haveI := Fact.mk hp
    ∃ f : {k // ∃ b, B.barcode[k]? = some b ∧ b.1 ≤ s ∧ t < b.2} ≃
        {j // (H.matching F hp).Alive (F.filt hp) e j s ∧ (H.matching F hp).Alive (F.filt hp) e j t},
      ∀ k, zv p (colOf (nn R) P rts e (f k).1) = B.chain p k.1 := by
  have := Fact.mk hp
  have hs := lt_of_le_of_lt hst ht
  have key : ∀ k : {k // ∃ b, B.barcode[k]? = some b ∧ b.1 ≤ s ∧ t < b.2},
      ∃ j, keys[k.1]? = some j ∧ ((H.matching F hp).Alive (F.filt hp) e j s ∧
        (H.matching F hp).Alive (F.filt hp) e j t) ∧
        zv p (colOf (nn R) P rts e j) = B.chain p k.1 := by
    rintro ⟨k, b, hb, h1, h2⟩
    obtain ⟨j, hj, rfl, e2⟩ := hok.get (p := p) hb
    have hm := List.mem_of_getElem? hj
    exact ⟨j, hj, ⟨(alive_iff F H _ _ hk hs j).2 ⟨hm, h1, lt_of_le_of_lt hst h2⟩,
      (alive_iff F H _ _ hk ht j).2 ⟨hm, h1.trans hst, h2⟩⟩, e2.symm⟩
  choose f hf1 hf2 hf3 using key
  refine ⟨Equiv.ofBijective (fun k => ⟨f k, hf2 k⟩) ⟨?_, ?_⟩, hf3⟩
  · intro x y hxy
    have h0 : f x = f y := congrArg Subtype.val hxy
    have h1 := hf1 x
    have h2 := hf1 y
    rw [h0] at h1
    apply Subtype.ext
    obtain ⟨hx, h1⟩ := List.getElem?_eq_some_iff.1 h1
    obtain ⟨hy, h2⟩ := List.getElem?_eq_some_iff.1 h2
    exact (List.Nodup.getElem_inj_iff hk.nodup).1 (h1.trans h2.symm)
  · rintro ⟨j, hj1, hj2⟩
    obtain ⟨hm, h1, -⟩ := (alive_iff F H _ _ hk hs j).1 hj1
    obtain ⟨-, -, h2⟩ := (alive_iff F H _ _ hk ht j).1 hj2
    obtain ⟨k, hk', hkj⟩ := List.getElem_of_mem hm
    have hb : B.barcode[k]? = some (keyBar maxRad R P rts e j).1 := by
      rw [hok.bars, List.getElem?_map, List.getElem?_eq_getElem hk', hkj]; rfl
    refine ⟨⟨k, _, hb, h1, h2⟩, Subtype.ext ?_⟩
    have := hf1 ⟨k, _, hb, h1, h2⟩
    simp only [] at this
    rw [List.getElem?_eq_getElem hk', hkj] at this
    exact (Option.some.inj this).symm

/-- **C23.** For every degree and every radius `t < maxRad` the classes of the representatives of the
bars containing `t` form a basis of `H_e(X_t; Z/p)`. -/
theorem C23_alive_bars_basis_of_homology (hp : p.Prime) (rnd : α → α)
    (F : FiltComplex p D R maxRad) (out : PHOut α)
    (h : persistentHomology rnd p (R.getD 0 []).length D R maxRad = .ok out)
    (e : ℕ) (B : Basis α) (hB : out.hom[e]? = some B) (t : α) (ht : t < maxRad) :
    ∃ β : Module.Basis {k // AliveBar B.barcode k t} (ZMod p) (homologyAt p D R e t),
      ∀ k, ∃ hz : B.chain p k.1 ∈ cyclesAt p D R e t, β k = homClass (B.chain p k.1) hz := by
  obtain ⟨P, rts, fin, levels, H, S⟩ := run_spec hp rnd F h
  obtain ⟨keys, hk, hok⟩ := hom_spec S hB
  have := Fact.mk hp
  obtain ⟨f, hf⟩ := aliveEquiv hp F H hk hok t t le_rfl ht
  let g : {j // (H.matching F hp).Alive (F.filt hp) e j t ∧
      (H.matching F hp).Alive (F.filt hp) e j t} ≃ {j // (H.matching F hp).Alive (F.filt hp) e j t} :=
    Equiv.subtypeEquivRight fun j => and_self_iff
  let fg : {j // (H.matching F hp).Alive (F.filt hp) e j t} ≃ {k // AliveBar B.barcode k t} :=
    (f.trans g).symm
  refine ⟨(aliveBasis (H.matching F hp) (F.filt hp) e t).reindex fg, fun k => ?_⟩
  have hcol : zv p (colOf (nn R) P rts e (g (f k)).1) = B.chain p k.1 := hf k
  have hmem := (H.matching F hp).alive_mem (F.filt hp) (g (f k)).2
  refine ⟨hcol ▸ hmem, ?_⟩
  rw [Module.Basis.reindex_apply]
  have : fg.symm k = g (f k) := rfl
  rw [this, aliveBasis_apply]
  unfold homClass
  congr 1
  exact Subtype.ext hcol

/-- **C24.** The number of bars with `birth ≤ s` and `death > t` is the rank of
`H_e(X_s) → H_e(X_t)`. -/
theorem C24_persistent_betti (hp : p.Prime) (rnd : α → α)
    (F : FiltComplex p D R maxRad) (out : PHOut α)
    (h : persistentHomology rnd p (R.getD 0 []).length D R maxRad = .ok out)
    (e : ℕ) (B : Basis α) (hB : out.hom[e]? = some B) (s t : α) (hst : s ≤ t) (ht : t < maxRad) :
    Module.finrank (ZMod p) (LinearMap.range (homMap p D R e hst)) =
      (B.barcode.filter fun b => decide (b.1 ≤ s ∧ t < b.2)).length := by
  classical
  obtain ⟨P, rts, fin, levels, H, S⟩ := run_spec hp rnd F h
  obtain ⟨keys, hk, hok⟩ := hom_spec S hB
  have := Fact.mk hp
  obtain ⟨f, hf⟩ := aliveEquiv hp F H hk hok s t hst ht
  let q : ℕ → Prop := fun k => ∃ b, B.barcode[k]? = some b ∧ b.1 ≤ s ∧ t < b.2
  have hmem : ∀ k, k ∈ (Finset.range B.barcode.length).filter q ↔ q k := by
    intro k
    rw [Finset.mem_filter, Finset.mem_range]
    constructor
    · exact fun h => h.2
    · rintro ⟨b, hb, h'⟩
      exact ⟨(List.getElem?_eq_some_iff.1 hb).1, b, hb, h'⟩
  letI : Fintype {k // q k} := Fintype.subtype _ hmem
  letI : Fintype {j // (H.matching F hp).Alive (F.filt hp) e j s ∧
    (H.matching F hp).Alive (F.filt hp) e j t} := Fintype.ofEquiv _ f
  rw [finrank_homMap (H.matching F hp) (F.filt hp) e hst, ← Fintype.card_congr f,
    Fintype.card_of_subtype _ hmem]
  have hcount : ∀ l : List (α × α), ((Finset.range l.length).filter fun k =>
      ∃ b, l[k]? = some b ∧ b.1 ≤ s ∧ t < b.2).card =
      (l.filter fun b => decide (b.1 ≤ s ∧ t < b.2)).length := by
    intro l
    induction l using List.reverseRecOn with
    | nil => simp
    | append_singleton l b ih =>
      rw [List.filter_append, List.length_append (as := List.filter _ l), ← ih, List.length_append,
        List.length_singleton,
        Finset.range_add_one, Finset.filter_insert]
      have hcong : (Finset.range l.length).filter (fun k =>
          ∃ b_1, (l ++ [b])[k]? = some b_1 ∧ b_1.1 ≤ s ∧ t < b_1.2) =
          (Finset.range l.length).filter (fun k => ∃ b, l[k]? = some b ∧ b.1 ≤ s ∧ t < b.2) := by
        refine Finset.filter_congr fun k hk => ?_
        rw [List.getElem?_append_left (mem_range.1 hk)]
      rw [hcong]
      have hl : (l ++ [b])[l.length]? = some b := by simp
      rw [hl]
      by_cases hq : b.1 ≤ s ∧ t < b.2
      · rw [if_pos ⟨b, rfl, hq⟩, Finset.card_insert_of_notMem (by simp)]
        simp [hq.1, hq.2]
      · rw [if_neg (by rintro ⟨b', hb', h'⟩; cases hb'; exact hq h')]
        simp [hq]
  exact hcount B.barcode

/-- **C24.** Naturality: the class of a representative alive at `s` is sent to the class of the same
representative if the bar contains `t`, and to `0` otherwise. -/
theorem C24_structure_maps (hp : p.Prime) (rnd : α → α)
    (F : FiltComplex p D R maxRad) (out : PHOut α)
    (h : persistentHomology rnd p (R.getD 0 []).length D R maxRad = .ok out)
    (e : ℕ) (B : Basis α) (hB : out.hom[e]? = some B) (s t : α) (hst : s ≤ t) (ht : t < maxRad)
    (k : ℕ) (hk : AliveBar B.barcode k s) (hz : B.chain p k ∈ cyclesAt p D R e s) :
    (AliveBar B.barcode k t → ∃ hz' : B.chain p k ∈ cyclesAt p D R e t,
      homMap p D R e hst (homClass (B.chain p k) hz) = homClass (B.chain p k) hz' ∧
      homClass (B.chain p k) hz' ≠ 0) ∧
    (¬ AliveBar B.barcode k t → homMap p D R e hst (homClass (B.chain p k) hz) = 0) := by
  have hz' := cyclesAt_mono p D R e hst hz
  have hmap : homMap p D R e hst (homClass (B.chain p k) hz) = homClass (B.chain p k) hz' := rfl
  obtain ⟨b, hb, hb1, hb2⟩ := hk
  have h22 := C22_finite_bars_die_as_boundaries hp rnd F out h e B hB k b hb
  refine ⟨fun ha => ⟨hz', hmap, ?_⟩, fun ha => ?_⟩
  · obtain ⟨b', hb', -, hlt⟩ := ha
    rw [hb] at hb'; cases hb'
    rw [Ne, homClass_eq_zero]
    exact h22.2 t hlt
  · rw [hmap, homClass_eq_zero]
    have hle : b.2 ≤ t := by
      by_contra hc
      exact ha ⟨b, hb, hb1.trans hst, not_le.1 hc⟩
    exact boundariesAt_mono p D R e hle (h22.1 (lt_of_le_of_lt hle ht))

/-- **C25.** `D PreIm = Im`, with preimages present at the birth of their bar; image bars die at
`maxRad`. -/
theorem C25_preimages (hp : p.Prime) (rnd : α → α) (F : FiltComplex p D R maxRad) (out : PHOut α)
    (h : persistentHomology rnd p (R.getD 0 []).length D R maxRad = .ok out)
    (e : ℕ) (he : e < D.length) (B : Basis α) (Q : Mat) (hB : out.im[e]? = some B)
    (hQ : out.preIm[e + 1]? = some Q) :
    Q.ncols = B.barcode.length ∧ Q.nrows = (R.getD (e + 1) []).length ∧ Q.WellShaped ∧ Q.Reduced p ∧
    ∀ (k : ℕ) (b : α × α), B.barcode[k]? = some b →
      bdry p D (e + 1) (zv p (Q.cols.getD k [])) = B.chain p k ∧
      zv p (Q.cols.getD k []) ∈ chainsAt p R (e + 1) b.1 ∧ b.2 = maxRad := by
  obtain ⟨P, rts, fin, levels, H, S⟩ := run_spec hp rnd F h
  obtain ⟨B', Q', keys, h1, h2, hperm, hok⟩ := S.im e he
  rw [hB] at h1; cases h1
  rw [hQ] at h2; cases h2
  have := Fact.mk hp
  have M := H.matching F hp
  have hκ : ∀ j ∈ keys, kap (nn R (e + 1)) (P (e + 1)) (rts e) j < nn R (e + 1) :=
    fun j hj => (H.kap_spec F (hperm.mem_iff.1 hj)).1
  refine ⟨by rw [Mat.ncols, hok.pcols, hok.bars]; simp, hok.prows, ?_, ?_, ?_⟩
  · intro c hc
    rw [hok.pcols, List.mem_map] at hc
    obtain ⟨j, hj, rfl⟩ := hc
    rw [hok.prows]
    exact (H.colOf_ok F hp (hκ j hj)).1
  · intro c hc
    rw [hok.pcols, List.mem_map] at hc
    obtain ⟨j, hj, rfl⟩ := hc
    exact (H.colOf_ok F hp (hκ j hj)).2
  · intro k b hb
    obtain ⟨j, hj, rfl, e2⟩ := hok.toHomOK.get (p := p) hb
    have hjk := List.mem_of_getElem? hj
    have hjP := hperm.mem_iff.1 hjk
    have e3 : Q.cols.getD k [] = (keyIm maxRad R P rts e j).2 := by
      rw [hok.pcols, List.getD_eq_getElem?_getD, List.getElem?_map, hj]; rfl
    rw [e2, e3]
    refine ⟨(M.eq e j hjP).symm, ?_, rfl⟩
    refine M.basis_mem (F.filt hp) (e + 1) _ _ (born_iff.2 ⟨hκ j hjk, ?_⟩)
    simp only [keyIm, dR, if_pos hjP]; exact le_rfl

/-- **C25.** For every `t < maxRad` the columns of `Im[e]` whose bar contains `t` form a basis of the
boundaries of `X_t`. -/
theorem C25_image_basis_of_boundaries (hp : p.Prime) (rnd : α → α) (F : FiltComplex p D R maxRad)
    (out : PHOut α) (h : persistentHomology rnd p (R.getD 0 []).length D R maxRad = .ok out)
    (e : ℕ) (B : Basis α) (hB : out.im[e]? = some B) (t : α) (ht : t < maxRad) :
    LinearIndependent (ZMod p) (fun k : {k // AliveBar B.barcode k t} => B.chain p k.1) ∧
    Submodule.span (ZMod p) (Set.range fun k : {k // AliveBar B.barcode k t} => B.chain p k.1) =
      boundariesAt p D R e t := by
  obtain ⟨P, rts, fin, levels, H, S⟩ := run_spec hp rnd F h
  have hel : e < D.length + 1 := by
    rw [← S.imlen]; exact (List.getElem?_eq_some_iff.1 hB).1
  have := Fact.mk hp
  have M := H.matching F hp
  rcases Nat.lt_or_ge e D.length with he | he
  · obtain ⟨B', Q', keys, h1, h2, hperm, hok⟩ := S.im e he
    rw [hB] at h1; cases h1
    obtain ⟨i1, i2⟩ := boundary_basis M (F.filt hp) e t
    have hnd : keys.Nodup := hperm.nodup_iff.2 (H.P_nodup F hp e)
    have key : ∀ k : {k // AliveBar B.barcode k t}, ∃ j, keys[k.1]? = some j ∧
        (j ∈ {j | j ∈ P e} ∧ Born R (e + 1) (kap (nn R (e + 1)) (P (e + 1)) (rts e) j) t) ∧
        zv p (colOf (nn R) P rts e j) = B.chain p k.1 := by
      rintro ⟨k, b, hb, hb1, hb2⟩
      obtain ⟨j, hj, rfl, e2⟩ := hok.toHomOK.get (p := p) hb
      have hjP := hperm.mem_iff.1 (List.mem_of_getElem? hj)
      refine ⟨j, hj, ⟨hjP, born_iff.2 ⟨(H.kap_spec F hjP).1, ?_⟩⟩, e2.symm⟩
      simp only [keyIm, dR, if_pos hjP] at hb1
      exact hb1
    choose f hf1 hf2 hf3 using key
    let g : {k // AliveBar B.barcode k t} → {j // j ∈ {j | j ∈ P e} ∧
        Born R (e + 1) (kap (nn R (e + 1)) (P (e + 1)) (rts e) j) t} := fun k => ⟨f k, hf2 k⟩
    have hfam : (fun k : {k // AliveBar B.barcode k t} => B.chain p k.1) =
        (fun j : {j // j ∈ {j | j ∈ P e} ∧
          Born R (e + 1) (kap (nn R (e + 1)) (P (e + 1)) (rts e) j) t} =>
          zv p (colOf (nn R) P rts e j.1)) ∘ g := by
      funext k; exact (hf3 k).symm
    have hinj : Function.Injective g := by
      intro x y hxy
      have h0 : f x = f y := congrArg Subtype.val hxy
      have h1 := hf1 x
      have h2 := hf1 y
      rw [h0] at h1
      apply Subtype.ext
      obtain ⟨hx, h1⟩ := List.getElem?_eq_some_iff.1 h1
      obtain ⟨hy, h2⟩ := List.getElem?_eq_some_iff.1 h2
      exact (List.Nodup.getElem_inj_iff hnd).1 (h1.trans h2.symm)
    have hsurj : Function.Surjective g := by
      rintro ⟨j, hjP, hj⟩
      obtain ⟨k, hk', hkj⟩ := List.getElem_of_mem (hperm.mem_iff.2 (show j ∈ P e from hjP))
      have hb : B.barcode[k]? = some (keyIm maxRad R P rts e j).1.1 := by
        rw [hok.bars, List.getElem?_map, List.getElem?_eq_getElem hk', hkj]; rfl
      have hal : AliveBar B.barcode k t := by
        refine ⟨_, hb, ?_, ht⟩
        simp only [keyIm, dR, if_pos (show j ∈ P e from hjP)]
        exact (born_iff.1 hj).2
      refine ⟨⟨k, hal⟩, Subtype.ext ?_⟩
      have := hf1 ⟨k, hal⟩
      simp only [] at this
      rw [List.getElem?_eq_getElem hk', hkj] at this
      exact (Option.some.inj this).symm
    rw [hfam]
    exact ⟨i1.comp g hinj, by rw [hsurj.range_comp]; exact i2⟩
  · have he' : e = D.length := by omega
    subst he'
    obtain ⟨B', h1, hb, -⟩ := S.top
    rw [hB] at h1; cases h1
    have hemp : IsEmpty {k // AliveBar B.barcode k t} := by
      refine ⟨?_⟩
      rintro ⟨k, b, hk, -⟩
      rw [hb] at hk; simp at hk
    refine ⟨linearIndependent_empty_type, ?_⟩
    rw [Set.range_eq_empty, Submodule.span_empty]
    symm
    rw [boundariesAt]
    have : bdry p D (D.length + 1) = 0 := by
      simp [bdry]
    rw [this, Submodule.map_zero]

/-- **C26.** The barcodes are well formed: `birth < death ≤ maxRad`, standard order, one coordinate
column per bar with one reduced entry per simplex, and never more bars than simplices (the room
preallocated by the code). -/
theorem C26_barcodes_well_formed (hp : p.Prime) (rnd : α → α) (F : FiltComplex p D R maxRad)
    (out : PHOut α) (h : persistentHomology rnd p (R.getD 0 []).length D R maxRad = .ok out)
    (e : ℕ) (B : Basis α) (hB : out.hom[e]? = some B) :
    (∀ b ∈ B.barcode, b.1 < b.2 ∧ b.2 ≤ maxRad) ∧
    B.barcode.Pairwise (fun a b => rnd a.1 < rnd b.1 ∨ (rnd a.1 = rnd b.1 ∧ rnd b.2 ≤ rnd a.2)) ∧
    B.coords.ncols = B.barcode.length ∧ B.dim = B.barcode.length ∧
    (∀ c ∈ B.coords.cols, c.length = (R.getD e []).length ∧ ∀ x ∈ c, 0 ≤ x ∧ x < (p : Int)) ∧
    B.barcode.length ≤ (R.getD e []).length := by
  obtain ⟨P, rts, fin, levels, H, S⟩ := run_spec hp rnd F h
  obtain ⟨keys, hk, hok⟩ := hom_spec S hB
  refine ⟨?_, hok.order, ?_, ?_, ?_, ?_⟩
  · intro b hb
    rw [hok.bars, List.mem_map] at hb
    obtain ⟨j, hj, rfl⟩ := hb
    refine ⟨((hk.mem j).1 hj).2.2, ?_⟩
    simp only [keyBar, dR]
    split
    · next hP => exact (bR_lt F (H.kap_spec F hP).1).le
    · exact le_rfl
  · rw [Mat.ncols, hok.cols, hok.bars]; simp
  · rw [hok.dim, hok.bars]; simp
  · intro c hc
    rw [hok.cols, List.mem_map] at hc
    obtain ⟨j, hj, rfl⟩ := hc
    exact H.colOf_ok F hp ((hk.mem j).1 hj).1
  · rw [hok.bars, List.length_map]
    have hsub : keys ⊆ List.range (nn R e) := fun j hj => List.mem_range.2 ((hk.mem j).1 hj).1
    have := (List.subperm_of_subset hk.nodup hsub).length_le
    simpa [nn] using this

/-! ## A concrete filtered complex

The boundary of a triangle with one more vertex attached, filled at a later radius. -/

/-- `D[1]`, `D[2]` of the path `0-1-2`, `0-2` filled by a triangle, mod 3. -/
def exD : List Mat :=
  [Mat.ofRows 3 [[1, 0, 1], [2, 1, 0], [0, 2, 2]], Mat.ofRows 1 [[1], [1], [2]]]
def exR : List (List Int) := [[0, 0, 0], [1, 1, 2], [4]]

theorem exPH : FiltComplex 3 exD exR 6 := by
  have hD : ∀ e M, exD[e]? = some M →
      (e = 0 ∧ M = Mat.ofRows 3 [[1, 0, 1], [2, 1, 0], [0, 2, 2]]) ∨
      (e = 1 ∧ M = Mat.ofRows 1 [[1], [1], [2]]) := by
    intro e M h
    match e, h with
    | 0, h => left; simpa [exD, eq_comm] using h
    | 1, h => right; simpa [exD, eq_comm] using h
    | e + 2, h => simp [exD] at h
  refine ⟨rfl, by decide, ?_, ?_, ?_, by decide, by decide, ?_, ?_, by decide, by decide⟩
  · intro e M h
    rcases hD e M h with ⟨rfl, rfl⟩ | ⟨rfl, rfl⟩ <;> decide
  · intro M hM
    simp only [exD, List.mem_cons, List.not_mem_nil, or_false] at hM
    rcases hM with rfl | rfl
    · exact ⟨by unfold Mat.WellShaped; decide, by unfold Mat.Reduced; decide⟩
    · exact ⟨by unfold Mat.WellShaped; decide, by unfold Mat.Reduced; decide⟩
  · intro e M N hM hN i k
    rcases hD e M hM with ⟨rfl, rfl⟩ | ⟨rfl, rfl⟩
    · rcases hD _ N hN with ⟨h, _⟩ | ⟨_, rfl⟩
      · omega
      · have hn : (Mat.ofRows 3 [[1, 0, 1], [2, 1, 0], [0, 2, 2]]).ncols = 3 := by decide
        rw [hn]
        simp only [Finset.sum_range_succ, Finset.sum_range_zero, zero_add]
        match i, k with
        | 0, 0 => decide
        | 1, 0 => decide
        | 2, 0 => decide
        | i, k + 1 =>
          have : ∀ j, (Mat.ofRows 1 [[1], [1], [2]]).z 3 j (k + 1) = 0 := by
            intro j; simp [Mat.z, Mat.get, Mat.ofRows]
          simp [this]
        | i + 3, 0 =>
          have : ∀ j < 3, (Mat.ofRows 3 [[1, 0, 1], [2, 1, 0], [0, 2, 2]]).z 3 (i + 3) j = 0 := by
            intro j hj
            match j, hj with
            | 0, _ => simp [Mat.z, Mat.get, Mat.ofRows]
            | 1, _ => simp [Mat.z, Mat.get, Mat.ofRows]
            | 2, _ => simp [Mat.z, Mat.get, Mat.ofRows]
          simp [this]
    · rcases hD _ N hN with ⟨h, _⟩ | ⟨h, _⟩ <;> omega
  · intro e M hM i j hne t hb
    obtain ⟨r, hr, hrt⟩ := hb
    have hi : i < M.nrows := by
      by_contra hc
      apply hne
      rcases hD e M hM with ⟨rfl, rfl⟩ | ⟨rfl, rfl⟩
      · exact Mat.WellShaped.zv_zero (by unfold Mat.WellShaped; decide) (not_lt.1 hc) j
      · exact Mat.WellShaped.zv_zero (by unfold Mat.WellShaped; decide) (not_lt.1 hc) j
    rcases hD e M hM with ⟨rfl, rfl⟩ | ⟨rfl, rfl⟩
    · have hi : i < 3 := hi
      have hr0 : 0 ≤ r := by
        match j, hr with
        | 0, hr => simp [exR] at hr; omega
        | 1, hr => simp [exR] at hr; omega
        | 2, hr => simp [exR] at hr; omega
        | j + 3, hr => simp [exR] at hr
      match i, hi with
      | 0, _ => exact ⟨0, rfl, hr0.trans hrt⟩
      | 1, _ => exact ⟨0, rfl, hr0.trans hrt⟩
      | 2, _ => exact ⟨0, rfl, hr0.trans hrt⟩
    · have hi : i < 3 := hi
      have hr0 : 4 ≤ r := by
        match j, hr with
        | 0, hr => simp [exR] at hr; omega
        | j + 1, hr => simp [exR] at hr
      match i, hi with
      | 0, _ => exact ⟨1, rfl, by omega⟩
      | 1, _ => exact ⟨1, rfl, by omega⟩
      | 2, _ => exact ⟨2, rfl, by omega⟩
  · intro e he
    match e, he with
    | 0, _ => decide
    | 1, _ => decide
    | e + 2, he => exact absurd (by simp [exR]) he

/-- The run on the example: three components merging at 1, one loop living from 2 to 4. -/
example : (persistentHomology id 3 3 exD exR 6).map (fun o => o.hom.map fun B => B.barcode) =
    .ok [[(0, 6), (0, 1), (0, 1)], [(2, 4)], []] ∧
    (persistentHomology id 3 3 exD exR 6).map (fun o => o.im.map fun B => B.barcode) =
    .ok [[(1, 6), (1, 6)], [(4, 6)], []] := by decide

end Permaviss
