import Verif.Props.PH
import Verif.Props.GaussRad
import Verif.Lemmas.CechVal
import Verif.Spec.Lift

/-!
# Lifts of local chains to the first page
-/

namespace Permaviss

open Finset

attribute [-instance] instMulZeroClassOfSemiring

variable {α : Type} [LinearOrder α] [Zero α] {p : ℕ}

/-- The columns of a basis, as `first_page_local_lift` reads them. -/
def Basis.liftCols (B : Basis α) : List (List Int) := if 0 < B.dim then B.coords.cols else []

/-- The births of a basis, as `first_page_local_lift` reads them. -/
def Basis.liftRads (B : Basis α) : List α := if 0 < B.dim then B.barcode.map Prod.fst else []

/-- What is needed of the bases `Im` and `Hom` of one degree: columns of the right length, one bar for
each, and columns with the same pivot are equal. -/
structure LiftOK (p n : ℕ) (v : ℕ → ℕ → ZMod p) (B : Basis α) : Prop where
  len : B.liftCols.length = B.dim
  bars : B.barcode.length = B.dim
  width : ∀ c ∈ B.liftCols, c.length = n
  nrows : 0 < B.dim → B.coords.nrows = n
  col : ∀ k < B.dim, B.chain p k = zv p (B.liftCols.getD k [])
  key : ∀ k < B.dim, ∃ j < n, B.chain p k = v j

theorem LiftOK.rads {n : ℕ} {v : ℕ → ℕ → ZMod p} {B : Basis α} (h : LiftOK p n v B) :
    B.liftRads.length = B.dim := by
  unfold Basis.liftRads
  split
  · rw [List.length_map, h.bars]
  · rw [List.length_nil]; omega

theorem LiftOK.rad_get {n : ℕ} {v : ℕ → ℕ → ZMod p} {B : Basis α} (h : LiftOK p n v B) {k : ℕ}
    (hk : k < B.dim) : ∃ b, B.barcode[k]? = some b ∧ B.liftRads[k]? = some b.1 := by
  have hk' : k < B.barcode.length := by rw [h.bars]; exact hk
  refine ⟨B.barcode[k], List.getElem?_eq_getElem hk', ?_⟩
  unfold Basis.liftRads
  rw [if_pos (by omega), List.getElem?_map, List.getElem?_eq_getElem hk']
  rfl

theorem HomOK.liftOK {rnd : α → α} {n : ℕ} {bar : ℕ → BarCol α} {keys : List ℕ} {B : Basis α}
    (h : HomOK rnd n bar keys B) (hw : ∀ j ∈ keys, j < n ∧ (bar j).2.length = n) :
    LiftOK p n (fun j => zv p (bar j).2) B := by
  have hd := h.dim
  have hc : B.coords.cols.length = keys.length := by rw [h.cols, List.length_map]
  refine ⟨?_, ?_, ?_, ?_, ?_, ?_⟩
  · unfold Basis.liftCols
    split
    · rw [hc, hd]
    · rw [List.length_nil]; omega
  · rw [h.bars, List.length_map, hd]
  · intro c hcm
    unfold Basis.liftCols at hcm
    split at hcm
    · rw [h.cols] at hcm
      obtain ⟨j, hj, rfl⟩ := List.mem_map.1 hcm
      exact (hw j hj).2
    · simp at hcm
  · intro h0
    exact (h.rows (by rintro rfl; simp at hd; omega)).1
  · intro k hk
    unfold Basis.chain Basis.liftCols
    rw [if_pos (by omega)]
  · intro k hk
    have hk' : k < keys.length := by omega
    refine ⟨keys[k], (hw _ (List.getElem_mem hk')).1, ?_⟩
    unfold Basis.chain
    rw [h.cols, getD_map_lt hk']

/-- The bases of degree `e` of a run of `persistent_homology`. -/
theorem run_liftOK (hp : p.Prime) {rnd : α → α} {maxRad : α} {D : List Mat} {R : List (List α)}
    (F : FiltComplex p D R maxRad) {out : PHOut α}
    (h : persistentHomology rnd p (R.getD 0 []).length D R maxRad = .ok out) {e : ℕ}
    (he : e ≤ D.length) :
    ∃ (v : ℕ → ℕ → ZMod p) (im hom : Basis α), out.im[e]? = some im ∧ out.hom[e]? = some hom ∧
      LiftOK p (nn R e) v im ∧ LiftOK p (nn R e) v hom ∧ ∀ j < nn R e, IsPiv (v j) j := by
  obtain ⟨P, rts, fin, levels, H, S⟩ := run_spec hp rnd F h
  have := Fact.mk hp
  have M := H.matching F hp
  obtain ⟨hom, kh, h1, h2, h3⟩ := S.hom e he
  have hh : LiftOK p (nn R e) (fun j => zv p (colOf (nn R) P rts e j)) hom :=
    h3.liftOK fun j hj => by
      have hj' := ((h2.mem j).1 hj).1
      exact ⟨hj', (H.colOf_ok F hp hj').1⟩
  rcases Nat.lt_or_ge e D.length with hlt | hge
  · obtain ⟨im, Q, ki, i1, -, i3, i4⟩ := S.im e hlt
    refine ⟨_, im, hom, i1, h1, ?_, hh, fun j hj => M.piv e j hj⟩
    exact i4.toHomOK.liftOK fun j hj => by
      have hj' := H.P_lt F (i3.mem_iff.1 hj)
      exact ⟨hj', (H.colOf_ok F hp hj').1⟩
  · obtain rfl : e = D.length := by omega
    obtain ⟨im, i1, i2, i3⟩ := S.top
    refine ⟨_, im, hom, i1, h1, ?_, hh, fun j hj => M.piv _ j hj⟩
    have hl : im.liftCols = [] := by unfold Basis.liftCols; rw [if_neg (by omega)]
    refine ⟨by rw [hl, i3]; rfl, by rw [i2, i3]; rfl, by rw [hl]; simp, by omega, by omega, by omega⟩

/-! ## Cycles are combinations of boundaries and representatives -/

/-- The generators born at or before `t`. -/
def bornSet (p : ℕ) (im hom : Basis α) (t : α) : Set (ℕ → ZMod p) :=
  {x | ∃ k < im.dim, (∃ b, im.barcode[k]? = some b ∧ b.1 ≤ t) ∧ x = im.chain p k} ∪
  {x | ∃ k < hom.dim, (∃ b, hom.barcode[k]? = some b ∧ b.1 ≤ t) ∧ x = hom.chain p k}

theorem decomposes_of_span {im hom : Basis α} {t : α} {z : ℕ → ZMod p}
    (hz : z ∈ Submodule.span (ZMod p) (bornSet p im hom t)) :
    ∃ γ β, Decomposes p im hom z t γ β := by
  induction hz using Submodule.span_induction with
  | mem x hx =>
    rcases hx with ⟨k, hk, hb, rfl⟩ | ⟨k, hk, hb, rfl⟩
    · refine ⟨Pi.single k 1, 0, ?_, ?_, ?_⟩
      · simp [Pi.single_apply, hk]
      · intro l _ hl
        have : l = k := by
          by_contra hc; exact hl (by simp [Pi.single_apply, hc])
        rw [this]; exact hb
      · intro l _ hl; exact absurd rfl hl
    · refine ⟨0, Pi.single k 1, ?_, ?_, ?_⟩
      · simp [Pi.single_apply, hk]
      · intro l _ hl; exact absurd rfl hl
      · intro l _ hl
        have : l = k := by
          by_contra hc; exact hl (by simp [Pi.single_apply, hc])
        rw [this]; exact hb
  | zero => exact ⟨0, 0, by simp, fun _ _ h => absurd rfl h, fun _ _ h => absurd rfl h⟩
  | add x y _ _ hx hy =>
    obtain ⟨γ, β, h1, h2, h3⟩ := hx
    obtain ⟨γ', β', h1', h2', h3'⟩ := hy
    refine ⟨γ + γ', β + β', ?_, ?_, ?_⟩
    · rw [h1, h1']
      simp only [Pi.add_apply, add_smul, Finset.sum_add_distrib]
      abel
    · intro k hk hne
      by_cases h0 : γ k = 0
      · exact h2' k hk fun h => hne (by simp [h0, h])
      · exact h2 k hk h0
    · intro k hk hne
      by_cases h0 : β k = 0
      · exact h3' k hk fun h => hne (by simp [h0, h])
      · exact h3 k hk h0
  | smul a x _ hx =>
    obtain ⟨γ, β, h1, h2, h3⟩ := hx
    refine ⟨a • γ, a • β, ?_, ?_, ?_⟩
    · rw [h1, smul_add, Finset.smul_sum, Finset.smul_sum]
      simp only [Pi.smul_apply, smul_eq_mul, mul_smul]
    · intro k hk hne
      exact h2 k hk fun h => hne (by simp [h])
    · intro k hk hne
      exact h3 k hk fun h => hne (by simp [h])

/-- Cycles at radius `t` are the chains that decompose along the generators born at or before `t`. -/
theorem cycles_iff_decomposes (hp : p.Prime) {rnd : α → α} {maxRad : α} {D : List Mat}
    {R : List (List α)} (F : FiltComplex p D R maxRad) {out : PHOut α}
    (h : persistentHomology rnd p (R.getD 0 []).length D R maxRad = .ok out) {e : ℕ}
    (he : e ≤ D.length) {im hom : Basis α} (him : out.im[e]? = some im)
    (hhom : out.hom[e]? = some hom) {t : α} (ht : t < maxRad) (z : ℕ → ZMod p) :
    z ∈ cyclesAt p D R e t ↔ ∃ γ β, Decomposes p im hom z t γ β := by
  obtain ⟨v, im', hom', e1, e2, hIm, hHom, -⟩ := run_liftOK hp F h he
  rw [him] at e1; cases e1
  rw [hhom] at e2; cases e2
  have hbd := (C25_image_basis_of_boundaries hp rnd F out h e im him t ht).2
  have hbc : boundariesAt p D R e t ≤ cyclesAt p D R e t := by
    rintro _ ⟨c, hc, rfl⟩
    refine ⟨?_, F.bdry_bdry e c⟩
    have := Fact.mk hp
    exact (F.filt hp).face e t c hc
  constructor
  · intro hz
    refine decomposes_of_span ?_
    set W := Submodule.span (ZMod p) (bornSet p im hom t) with hW
    have hBW : boundariesAt p D R e t ≤ W := by
      rw [← hbd, Submodule.span_le]
      rintro _ ⟨⟨k, b, hb, hb1, -⟩, rfl⟩
      refine Submodule.subset_span (Or.inl ⟨k, ?_, ⟨b, hb, hb1⟩, rfl⟩)
      rw [← hIm.bars]; exact (List.getElem?_eq_some_iff.1 hb).1
    obtain ⟨β, hβ⟩ := C23_alive_bars_basis_of_homology hp rnd F out h e hom hhom t ht
    let N := (boundariesAt p D R e t).submoduleOf (cyclesAt p D R e t)
    have htop : (⊤ : Submodule (ZMod p) (homologyAt p D R e t)) ≤
        (W.comap (cyclesAt p D R e t).subtype).map N.mkQ := by
      rw [← β.span_eq, Submodule.span_le]
      rintro _ ⟨k, rfl⟩
      obtain ⟨hzk, hk⟩ := hβ k
      rw [hk]
      refine ⟨⟨hom.chain p k.1, hzk⟩, ?_, rfl⟩
      obtain ⟨b, hb, hb1, -⟩ := k.2
      refine Submodule.subset_span (Or.inr ⟨k.1, ?_, ⟨b, hb, hb1⟩, rfl⟩)
      rw [← hHom.bars]; exact (List.getElem?_eq_some_iff.1 hb).1
    obtain ⟨z', hz', hq⟩ := htop (x := N.mkQ ⟨z, hz⟩) trivial
    have hd : (⟨z, hz⟩ : ↥(cyclesAt p D R e t)) - z' ∈ N := by
      rw [← Submodule.ker_mkQ N]
      change N.mkQ _ = 0
      rw [map_sub, hq, sub_self]
    have : z = (z - z'.1) + z'.1 := by abel
    rw [this]
    exact Submodule.add_mem _ (hBW hd) hz'
  · rintro ⟨γ, β, hs, h1, h2⟩
    rw [hs]
    refine Submodule.add_mem _ (Submodule.sum_mem _ fun k hk => ?_)
      (Submodule.sum_mem _ fun k hk => ?_)
    · by_cases h0 : γ k = 0
      · rw [h0, zero_smul]; exact Submodule.zero_mem _
      · refine Submodule.smul_mem _ _ (hbc ?_)
        have hk' := mem_range.1 hk
        obtain ⟨b, hb, hb1⟩ := h1 k hk' h0
        rw [← hbd]
        refine Submodule.subset_span ⟨⟨k, b, hb, hb1, ?_⟩, rfl⟩
        have hlt : e < D.length := by
          rcases Nat.lt_or_ge e D.length with hc | hc
          · exact hc
          · obtain ⟨P, rts, fin, levels, H, S⟩ := run_spec hp rnd F h
            obtain rfl : e = D.length := by omega
            obtain ⟨B, g1, -, g3⟩ := S.top
            rw [him] at g1; cases g1
            omega
        obtain ⟨P, rts, fin, levels, H, S⟩ := run_spec hp rnd F h
        obtain ⟨B, Q, keys, g1, g2, -, -⟩ := S.im e hlt
        have := (C25_preimages hp rnd F out h e hlt im Q him g2).2.2.2.2 k b hb
        rw [this.2.2]; exact ht
    · by_cases h0 : β k = 0
      · rw [h0, zero_smul]; exact Submodule.zero_mem _
      · refine Submodule.smul_mem _ _ ?_
        obtain ⟨b, hb, hb1⟩ := h2 k (mem_range.1 hk) h0
        obtain ⟨g1, g2, -⟩ := C21_representatives_are_cycles hp rnd F out h e hom hhom k b hb
        exact cyclesAt_mono p D R e hb1 ⟨g2, g1⟩

/-! ## The reduction -/

/-- The shape of the second matrix of `gauss_col_rad`. -/
theorem gaussColRad_shape (hp : p.Prime) {A Red T : Mat} {R : List α} {start : ℕ}
    (hA : A.WellShaped) (hR : R.length = A.ncols) (hs : start ≤ A.ncols)
    (h : gaussColRad p A R start = .ok (Red, T)) :
    T.cols.length = A.ncols ∧ ∀ c ∈ T.cols, c.length = A.ncols := by
  have hl := radAll_length (p := p) A R hR
  have hok := radAll_ok A R hR hp hA
  unfold gaussColRad at h
  simp only [bind, Except.bind] at h
  split at h
  · cases h
  · rename_i out hout
    simp only [pure, Except.pure, Except.ok.injEq, Prod.mk.injEq] at h
    obtain ⟨rfl, rfl⟩ := h
    obtain ⟨ho1, ho2⟩ := mapM_ok_spec hout
    rw [List.length_drop, hl] at ho1
    constructor
    · simp only [List.length_map, List.length_append, List.length_take, hl, ho1]; omega
    · intro c hc
      simp only [List.map_append, List.mem_append, List.mem_map] at hc
      rcases hc with ⟨x, ⟨y, hy, rfl⟩, rfl⟩ | ⟨x, hx, rfl⟩
      · exact (hok y (List.mem_of_mem_take hy)).len2
      · obtain ⟨j, hj, rfl⟩ := List.getElem_of_mem hx
        have hjd : j < ((radAll p A R).drop start).length := by rw [List.length_drop, hl]; omega
        have hrun := ho2 j hjd hj
        have hokj := hok _ (List.mem_of_mem_drop (List.getElem_mem hjd))
        rcases radLoop_spec hp _ ((radAll p A R).take start)
            (fun k hk => hok k (List.mem_of_mem_take hk)) _ _ hokj (Nat.succ_pos _)
            (fun pv h => Nat.succ_lt_succ (indexPivot_lt h)) with
          ⟨rt', h1, hok', -⟩ | ⟨h1, -⟩
        · rw [hrun] at h1; cases h1; exact hok'.len2
        · rw [hrun] at h1; cases h1

section

variable {N : ℕ} {v : ℕ → ℕ → ZMod p} {im hom : Basis α}

/-- The matrix `[Im | Hom | chains]`. -/
def liftMat (N : ℕ) (im hom : Basis α) (coord : List (List Int)) : Mat :=
  ⟨N, im.liftCols ++ hom.liftCols ++ coord⟩

/-- The radii of its columns. -/
def liftRad (im hom : Basis α) (radii : List α) : List α := im.liftRads ++ hom.liftRads ++ radii

theorem liftMat_z (hI : LiftOK p N v im) (hH : LiftOK p N v hom) (coord : List (List Int)) (i : ℕ) :
    (∀ k < im.dim, (liftMat N im hom coord).z p i k = im.chain p k i) ∧
    (∀ k < hom.dim, (liftMat N im hom coord).z p i (im.dim + k) = hom.chain p k i) ∧
    (∀ a, (liftMat N im hom coord).z p i (im.dim + hom.dim + a) = zv p (coord.getD a []) i) := by
  have h1 := hI.len
  have h2 := hH.len
  refine ⟨fun k hk => ?_, fun k hk => ?_, fun a => ?_⟩
  · rw [hI.col k hk]
    unfold Mat.z Mat.get liftMat zv
    simp only [List.getD_eq_getElem?_getD, List.append_assoc]
    rw [List.getElem?_append_left (by omega)]
  · rw [hH.col k hk]
    unfold Mat.z Mat.get liftMat zv
    simp only [List.getD_eq_getElem?_getD, List.append_assoc]
    rw [List.getElem?_append_right (by omega), List.getElem?_append_left (by omega)]
    congr 5; omega
  · unfold Mat.z Mat.get liftMat zv
    simp only [List.getD_eq_getElem?_getD]
    rw [List.getElem?_append_right (by rw [List.length_append]; omega), List.length_append]
    congr 5; omega

theorem liftRad_get (hI : LiftOK p N v im) (hH : LiftOK p N v hom) (radii : List α) :
    (∀ k < im.dim, ∃ b, im.barcode[k]? = some b ∧ (liftRad im hom radii)[k]? = some b.1) ∧
    (∀ k < hom.dim, ∃ b, hom.barcode[k]? = some b ∧ (liftRad im hom radii)[im.dim + k]? = some b.1) ∧
    (∀ a : ℕ, (liftRad im hom radii)[im.dim + hom.dim + a]? = radii[a]?) := by
  have h1 := hI.rads
  have h2 := hH.rads
  unfold liftRad
  refine ⟨fun k hk => ?_, fun k hk => ?_, fun a => ?_⟩
  · obtain ⟨b, hb, hr⟩ := hI.rad_get hk
    refine ⟨b, hb, ?_⟩
    rw [List.append_assoc, List.getElem?_append_left (by omega), hr]
  · obtain ⟨b, hb, hr⟩ := hH.rad_get hk
    refine ⟨b, hb, ?_⟩
    rw [List.append_assoc, List.getElem?_append_right (by omega),
      List.getElem?_append_left (by omega), h1, Nat.add_sub_cancel_left, hr]
  · rw [List.getElem?_append_right (by rw [List.length_append]; omega), List.length_append, h1, h2,
      Nat.add_sub_cancel_left]

theorem sum_split {M : Type*} [AddCommMonoid M] (f : ℕ → M) (a b : ℕ) :
    ∑ k ∈ range (a + b), f k = ∑ k ∈ range a, f k + ∑ k ∈ range b, f (a + k) :=
  Finset.sum_range_add f a b

/-- What the reduction says about the chains. -/
theorem lift_gauss (hp : p.Prime) (hI : LiftOK p N v im) (hH : LiftOK p N v hom)
    (hv : ∀ j < N, IsPiv (v j) j) {coord : List (List Int)} (hw : ∀ r ∈ coord, r.length = N)
    {radii : List α} (hl : radii.length = coord.length) :
    (∀ Red T, gaussColRad p (liftMat N im hom coord) (liftRad im hom radii) (im.dim + hom.dim) =
        .ok (Red, T) →
      (T.cols.length = im.dim + hom.dim + coord.length ∧
        ∀ c ∈ T.cols, c.length = im.dim + hom.dim + coord.length) ∧
      ∀ (a : ℕ) row r, coord[a]? = some row → radii[a]? = some r →
        Decomposes p im hom (zv p row) r (fun k => - T.z p k (im.dim + hom.dim + a))
          (fun k => - T.z p (im.dim + k) (im.dim + hom.dim + a)) ∧
        ∀ k, 0 ≤ T.get k (im.dim + hom.dim + a) ∧ T.get k (im.dim + hom.dim + a) < p) ∧
    ((∃ RT, gaussColRad p (liftMat N im hom coord) (liftRad im hom radii) (im.dim + hom.dim) = .ok RT) ↔
      ∀ (a : ℕ) row r, coord[a]? = some row → radii[a]? = some r →
        ∃ γ β, Decomposes p im hom (zv p row) r γ β) := by
  have h1 := hI.len
  have h2 := hH.len
  have hnc : (liftMat N im hom coord).ncols = im.dim + hom.dim + coord.length := by
    unfold liftMat Mat.ncols
    rw [List.length_append, List.length_append, h1, h2]
  have hA : (liftMat N im hom coord).WellShaped := by
    intro c hc
    unfold liftMat at hc
    rcases List.mem_append.1 hc with hc | hc
    · rcases List.mem_append.1 hc with hc | hc
      · exact hI.width c hc
      · exact hH.width c hc
    · exact hw c hc
  have hR : (liftRad im hom radii).length = (liftMat N im hom coord).ncols := by
    rw [hnc]; unfold liftRad
    rw [List.length_append, List.length_append, hI.rads, hH.rads, hl]
  have hs : im.dim + hom.dim ≤ (liftMat N im hom coord).ncols := by omega
  obtain ⟨r1, r2, r3⟩ := liftRad_get hI hH radii
  have hz := liftMat_z hI hH coord
  have hN : (liftMat N im hom coord).nrows = N := rfl
  have hzero : ∀ (B : Basis α), LiftOK p N v B → ∀ k < B.dim, ∀ i, N ≤ i → B.chain p k i = 0 := by
    intro B hB k hk i hi
    rw [hB.col k hk]
    apply zv_of_le
    rw [hB.width _ (getD_mem' (by rw [hB.len]; exact hk))]
    exact hi
  -- usable columns are the generators born in time
  have us1 : ∀ (a : ℕ) r, radii[a]? = some r → ∀ k < im.dim,
      (Usable (liftRad im hom radii) k (im.dim + hom.dim + a) ↔ ∃ b, im.barcode[k]? = some b ∧ b.1 ≤ r) := by
    intro a r hr k hk
    obtain ⟨b, hb, hbr⟩ := r1 k hk
    unfold Usable
    rw [hbr, r3, hr]
    constructor
    · rintro ⟨_, _, h1, h2, h3⟩; cases h1; cases h2; exact ⟨b, hb, h3⟩
    · rintro ⟨b', hb', h3⟩; rw [hb] at hb'; cases hb'; exact ⟨_, _, rfl, rfl, h3⟩
  have us2 : ∀ (a : ℕ) r, radii[a]? = some r → ∀ k < hom.dim,
      (Usable (liftRad im hom radii) (im.dim + k) (im.dim + hom.dim + a) ↔
        ∃ b, hom.barcode[k]? = some b ∧ b.1 ≤ r) := by
    intro a r hr k hk
    obtain ⟨b, hb, hbr⟩ := r2 k hk
    unfold Usable
    rw [hbr, r3, hr]
    constructor
    · rintro ⟨_, _, h1, h2, h3⟩; cases h1; cases h2; exact ⟨b, hb, h3⟩
    · rintro ⟨b', hb', h3⟩; rw [hb] at hb'; cases hb'; exact ⟨_, _, rfl, rfl, h3⟩
  have hrow : ∀ (a : ℕ) row, coord[a]? = some row → ∀ i,
      (liftMat N im hom coord).z p i (im.dim + hom.dim + a) = zv p row i := by
    intro a row ha i
    rw [(hz i).2.2 a, List.getD_eq_getElem?_getD, ha]; rfl
  constructor
  · intro Red T hT
    refine ⟨?_, ?_⟩
    · have := gaussColRad_shape hp hA hR hs hT
      rw [hnc] at this; exact this
    intro a row r ha hr
    have hac := (List.getElem?_eq_some_iff.1 ha).1
    obtain ⟨c1, c2, -, c4, -⟩ := (C12_gauss_col_rad_sound hp _ Red T _ _ hA hR hs hT).1
      (im.dim + hom.dim + a) (by omega) (by omega)
    refine ⟨⟨?_, ?_, ?_⟩, c4⟩
    · funext i
      simp only [Pi.add_apply, Finset.sum_apply, Pi.smul_apply, smul_eq_mul]
      rcases Nat.lt_or_ge i N with hi | hi
      · rw [← hrow a row ha i, c1 i hi, ← Finset.sum_neg_distrib, sum_split]
        congr 1
        · refine Finset.sum_congr rfl fun k hk => ?_
          rw [(hz i).1 k (mem_range.1 hk)]; ring
        · refine Finset.sum_congr rfl fun k hk => ?_
          rw [(hz i).2.1 k (mem_range.1 hk)]; ring
      · rw [zv_of_le _ (by rw [hw row (List.mem_of_getElem? ha)]; exact hi), Finset.sum_eq_zero,
          Finset.sum_eq_zero, add_zero]
        · intro k hk; rw [hzero hom hH k (mem_range.1 hk) i hi, mul_zero]
        · intro k hk; rw [hzero im hI k (mem_range.1 hk) i hi, mul_zero]
    · intro k hk hne
      by_contra hc
      apply hne
      have := c2 k (by omega) fun hu => hc ((us1 a r hr k hk).1 hu)
      unfold Mat.z; rw [this]; simp
    · intro k hk hne
      by_contra hc
      apply hne
      have := c2 (im.dim + k) (by omega) fun hu => hc ((us2 a r hr k hk).1 hu)
      unfold Mat.z; rw [this]; simp
  · rw [C13_gauss_col_rad_complete hp _ _ _ hA hR hs]
    · constructor
      · intro h a row r ha hr
        have hac := (List.getElem?_eq_some_iff.1 ha).1
        obtain ⟨c, c1, c2⟩ := h (im.dim + hom.dim + a) (by omega) (by omega)
        refine ⟨c, fun k => c (im.dim + k), ?_, ?_, ?_⟩
        · funext i
          simp only [Pi.add_apply, Finset.sum_apply, Pi.smul_apply, smul_eq_mul]
          rcases Nat.lt_or_ge i N with hi | hi
          · rw [← hrow a row ha i, c2 i hi, sum_split]
            congr 1
            · refine Finset.sum_congr rfl fun k hk => ?_
              rw [(hz i).1 k (mem_range.1 hk)]
            · refine Finset.sum_congr rfl fun k hk => ?_
              rw [(hz i).2.1 k (mem_range.1 hk)]
          · rw [zv_of_le _ (by rw [hw row (List.mem_of_getElem? ha)]; exact hi), Finset.sum_eq_zero,
              Finset.sum_eq_zero, add_zero]
            · intro k hk; rw [hzero hom hH k (mem_range.1 hk) i hi, mul_zero]
            · intro k hk; rw [hzero im hI k (mem_range.1 hk) i hi, mul_zero]
        · intro k hk hne
          by_contra hc
          exact hne (c1 k (by omega) fun hu => hc ((us1 a r hr k hk).1 hu))
        · intro k hk hne
          by_contra hc
          exact hne (c1 (im.dim + k) (by omega) fun hu => hc ((us2 a r hr k hk).1 hu))
      · intro h j hj1 hj2
        obtain ⟨a, rfl⟩ := Nat.exists_eq_add_of_le hj1
        have hac : a < coord.length := by omega
        have har : a < radii.length := by omega
        obtain ⟨γ, β, hs1, hs2, hs3⟩ := h a _ _ (List.getElem?_eq_getElem hac)
          (List.getElem?_eq_getElem har)
        refine ⟨fun k => if k < im.dim then γ k else β (k - im.dim), ?_, ?_⟩
        · intro k hk hu
          dsimp only
          by_cases hki : k < im.dim
          · rw [if_pos hki]
            by_contra hne
            exact hu ((us1 a _ (List.getElem?_eq_getElem har) k hki).2 (hs2 k hki hne))
          · rw [if_neg hki]
            by_contra hne
            obtain ⟨l, rfl⟩ := Nat.exists_eq_add_of_le (Nat.not_lt.1 hki)
            rw [Nat.add_sub_cancel_left] at hne
            have hl' : l < hom.dim := by omega
            exact hu ((us2 a _ (List.getElem?_eq_getElem har) l hl').2 (hs3 l hl' hne))
        · intro i hi
          rw [hrow a _ (List.getElem?_eq_getElem hac) i, hs1, sum_split]
          simp only [Pi.add_apply, Finset.sum_apply, Pi.smul_apply, smul_eq_mul]
          congr 1
          · refine Finset.sum_congr rfl fun k hk => ?_
            rw [(hz i).1 k (mem_range.1 hk), if_pos (mem_range.1 hk)]
          · refine Finset.sum_congr rfl fun k hk => ?_
            rw [(hz i).2.1 k (mem_range.1 hk), if_neg (by omega), Nat.add_sub_cancel_left]
    · -- columns with the same pivot are equal
      have hcol : ∀ k < im.dim + hom.dim, ∃ j < N, (fun i => (liftMat N im hom coord).z p i k) = v j := by
        intro k hk
        by_cases hki : k < im.dim
        · obtain ⟨j, hj, e⟩ := hI.key k hki
          exact ⟨j, hj, by rw [← e]; funext i; exact (hz i).1 k hki⟩
        · obtain ⟨l, rfl⟩ := Nat.exists_eq_add_of_le (Nat.not_lt.1 hki)
          obtain ⟨j, hj, e⟩ := hH.key l (by omega)
          exact ⟨j, hj, by rw [← e]; funext i; exact (hz i).2.1 l (by omega)⟩
      intro k hk l hl r hpk hpl i
      obtain ⟨j, hj, e⟩ := hcol k hk
      obtain ⟨j', hj', e'⟩ := hcol l hl
      rw [e] at hpk
      rw [e'] at hpl
      have q1 := (hv j hj).unique hpk
      have q2 := (hv j' hj').unique hpl
      have : j = j' := by omega
      subst this
      exact congrFun (e.trans e'.symm) i

end

/-! ## `first_page_local_lift` -/

theorem PieceOK.diff_length {rnd : α → α} {rows : ℕ} {maxR : α} {ρ : List ℕ → α} {o : LocalOut α}
    {pts : List ℕ} (hp : 2 ≤ p) (h : PieceOK rnd p rows maxR ρ o pts) :
    o.diff.length = o.cpx.simplices.length := by
  obtain ⟨n', hd⟩ := h.diff
  exact (C19_differentials_boundary hp h.cpx n' o.diff hd).2.1

theorem PieceOK.nn_eq {rnd : α → α} {rows : ℕ} {maxR : α} {ρ : List ℕ → α} {o : LocalOut α}
    {pts : List ℕ} (h : PieceOK rnd p rows maxR ρ o pts) {deg : ℕ} (hdeg : deg ≤ rows) :
    nn o.cpx.allRads deg = (o.glob pts deg).length := by
  unfold nn
  rw [h.rad deg (hdeg.trans h.levels), List.length_map]

/-- The data of one piece in one degree. -/
structure LiftData (rnd : α → α) (E : SSEnv α) (ρ : List ℕ → α) (n idx deg : ℕ) (o : LocalOut α)
    (pts : List ℕ) (v : ℕ → ℕ → ZMod E.p) (im hom : Basis α) : Prop where
  piece : E.piece n idx = .ok o
  pts_eq : E.pts n idx = .ok pts
  ok : PieceOK rnd E.p E.rows E.maxR ρ o pts
  im_get : o.ph.im[deg]? = some im
  hom_get : o.ph.hom[deg]? = some hom
  im0 : E.im0 n idx deg = .ok im
  hom0 : E.hom0 n idx deg = .ok hom
  im_ok : LiftOK E.p (E.G n idx deg).length v im
  hom_ok : LiftOK E.p (E.G n idx deg).length v hom
  piv : ∀ j < (E.G n idx deg).length, IsPiv (v j) j

theorem SSOK.liftData {rnd : α → α} {E : SSEnv α} {ρ : List ℕ → α} (h : SSOK rnd E ρ) {n idx deg : ℕ}
    (hn : n < E.columns.length) (hk : idx < E.spx n) (hdeg : deg ≤ E.rows) :
    ∃ o pts v im hom, LiftData rnd E ρ n idx deg o pts v im hom := by
  obtain ⟨o, pts, ho, hpts, hP⟩ := h.piece n hn idx hk
  have hG : (E.G n idx deg) = o.glob pts deg := by simp only [SSEnv.G, ho, hpts]
  obtain ⟨v, im, hom, e1, e2, e3, e4, e5⟩ := run_liftOK h.prime hP.filt hP.run (e := deg)
    (by rw [hP.diff_length h.prime.two_le]; exact hdeg.trans hP.levels)
  rw [hP.nn_eq hdeg, ← hG] at e3 e4 e5
  refine ⟨o, pts, v, im, hom, ho, hpts, hP, e1, e2, ?_, ?_, e3, e4, e5⟩
  · unfold SSEnv.im0 atE
    simp only [ho, bind, Except.bind, e1]
  · unfold SSEnv.hom0 atE
    simp only [ho, bind, Except.bind, e2]

section

variable {rnd : α → α} {E : SSEnv α} {ρ : List ℕ → α} {n idx deg : ℕ} {o : LocalOut α}
  {pts : List ℕ} {v : ℕ → ℕ → ZMod E.p} {im hom : Basis α}

theorem LiftData.none (L : LiftData rnd E ρ n idx deg o pts v im hom) (coord : List (List Int))
    (radii : List α) (h : radii = [] ∨ (im.dim = 0 ∧ hom.dim = 0)) :
    firstPageLocalLift E n deg coord radii idx = .ok none := by
  unfold firstPageLocalLift
  split
  · rfl
  · rcases h with h | h
    · contradiction
    · simp only [L.im0, L.hom0, bind, Except.bind, if_pos h]
      rfl

theorem LiftData.eq (L : LiftData rnd E ρ n idx deg o pts v im hom) (coord : List (List Int))
    (radii : List α) (hr : radii ≠ []) (h0 : ¬ (im.dim = 0 ∧ hom.dim = 0)) :
    firstPageLocalLift E n deg coord radii idx =
      if coord.all (fun r => r.length == (E.G n idx deg).length) then
        match gaussColRad E.p (liftMat (E.G n idx deg).length im hom coord) (liftRad im hom radii)
          (im.dim + hom.dim) with
        | .ok RT => .ok (some (⟨im.dim, ((RT.2.cols.drop (im.dim + hom.dim)).map (negMod E.p)).map
              fun t => t.take im.dim⟩,
            ⟨hom.dim, ((RT.2.cols.drop (im.dim + hom.dim)).map (negMod E.p)).map
              fun t => (t.take (im.dim + hom.dim)).drop im.dim⟩))
        | .error e => .error e
      else .error .valueError := by
  have hl : (im.liftCols ++ hom.liftCols).length = im.dim + hom.dim := by
    rw [List.length_append, L.im_ok.len, L.hom_ok.len]
  have hnr : (if 0 < hom.dim then hom.coords.nrows else im.coords.nrows) = (E.G n idx deg).length := by
    split
    · next h => exact L.hom_ok.nrows h
    · next h => exact L.im_ok.nrows (by omega)
  have c1 : (if 0 < im.dim then im.coords.cols else []) = im.liftCols := rfl
  have c2 : (if 0 < hom.dim then hom.coords.cols else []) = hom.liftCols := rfl
  have c3 : (if 0 < im.dim then im.barcode.map Prod.fst else []) = im.liftRads := rfl
  have c4 : (if 0 < hom.dim then hom.barcode.map Prod.fst else []) = hom.liftRads := rfl
  unfold firstPageLocalLift
  rw [if_neg hr]
  simp only [L.im0, L.hom0, bind, Except.bind, if_neg h0, c1, c2, c3, c4, hnr, hl,
    Nat.add_sub_cancel_left]
  split
  · unfold liftMat liftRad
    cases gaussColRad E.p ⟨(E.G n idx deg).length, im.liftCols ++ hom.liftCols ++ coord⟩
      (im.liftRads ++ hom.liftRads ++ radii) (im.dim + hom.dim) <;> rfl
  · rfl

/-- All about `first_page_local_lift` on chains of the right width. -/
theorem LiftData.lift (hp : E.p.Prime) (L : LiftData rnd E ρ n idx deg o pts v im hom)
    {coord : List (List Int)} {radii : List α} (hl : radii.length = coord.length) (hr : radii ≠ [])
    (h0 : ¬ (im.dim = 0 ∧ hom.dim = 0)) (hw : ∀ r ∈ coord, r.length = (E.G n idx deg).length) :
    (firstPageLocalLift E n deg coord radii idx = .error .runtimeError ∧
      ∃ (a : ℕ) (row : List Int) (r : α), coord[a]? = some row ∧ radii[a]? = some r ∧
        ¬ ∃ γ β, Decomposes E.p im hom (zv E.p row) r γ β) ∨
    ∃ γ β : Mat, firstPageLocalLift E n deg coord radii idx = .ok (some (γ, β)) ∧
      (γ.nrows = im.dim ∧ γ.ncols = coord.length ∧ γ.WellShaped ∧ γ.Reduced E.p) ∧
      (β.nrows = hom.dim ∧ β.ncols = coord.length ∧ β.WellShaped ∧ β.Reduced E.p) ∧
      ∀ (a : ℕ) (row : List Int) (r : α), coord[a]? = some row → radii[a]? = some r →
        Decomposes E.p im hom (zv E.p row) r (fun k => γ.z E.p k a) (fun k => β.z E.p k a) := by
  have hall : (coord.all fun r => r.length == (E.G n idx deg).length) = true := by
    rw [List.all_eq_true]; intro r hrm; rw [hw r hrm]; simp
  rw [L.eq coord radii hr h0, if_pos hall]
  obtain ⟨g1, g2⟩ := lift_gauss hp L.im_ok L.hom_ok L.piv hw hl
  have hnc : (liftMat (E.G n idx deg).length im hom coord).ncols = im.dim + hom.dim + coord.length := by
    unfold liftMat Mat.ncols
    rw [List.length_append, List.length_append, L.im_ok.len, L.hom_ok.len]
  have hA : (liftMat (E.G n idx deg).length im hom coord).WellShaped := by
    intro c hc
    unfold liftMat at hc
    rcases List.mem_append.1 hc with hc | hc
    · rcases List.mem_append.1 hc with hc | hc
      · exact L.im_ok.width c hc
      · exact L.hom_ok.width c hc
    · exact hw c hc
  have hR : (liftRad im hom radii).length = (liftMat (E.G n idx deg).length im hom coord).ncols := by
    rw [hnc]; unfold liftRad
    rw [List.length_append, List.length_append, L.im_ok.rads, L.hom_ok.rads, hl]
  rcases C13_gauss_col_rad_only_runtimeError hp _ _ (im.dim + hom.dim) hA hR with ⟨⟨Red, T⟩, hT⟩ | hT
  · right
    rw [hT]
    obtain ⟨⟨t1, t2⟩, t3⟩ := g1 Red T hT
    have hpz : (0 : ℤ) < E.p := by exact_mod_cast hp.pos
    have hdl : (T.cols.drop (im.dim + hom.dim)).length = coord.length := by
      rw [List.length_drop, t1]; omega
    have hlen : ∀ c ∈ T.cols.drop (im.dim + hom.dim), c.length = im.dim + hom.dim + coord.length :=
      fun c hc => t2 c (List.mem_of_mem_drop hc)
    have hget : ∀ a, a < coord.length →
        (T.cols.drop (im.dim + hom.dim)).getD a [] = T.cols.getD (im.dim + hom.dim + a) [] := by
      intro a _
      rw [List.getD_eq_getElem?_getD, List.getElem?_drop, List.getD_eq_getElem?_getD]
    refine ⟨_, _, rfl, ⟨rfl, ?_, ?_, ?_⟩, ⟨rfl, ?_, ?_, ?_⟩, ?_⟩
    · simp only [Mat.ncols, List.length_map, hdl]
    · intro c hc
      simp only [List.map_map, List.mem_map, Function.comp] at hc
      obtain ⟨t, ht, rfl⟩ := hc
      have := hlen t ht
      simp [negMod]; omega
    · intro c hc x hx
      simp only [List.map_map, List.mem_map, Function.comp] at hc
      obtain ⟨t, ht, rfl⟩ := hc
      obtain ⟨y, -, rfl⟩ := List.mem_map.1 (List.mem_of_mem_take hx)
      exact ⟨Int.emod_nonneg _ hpz.ne', Int.emod_lt_of_pos _ hpz⟩
    · simp only [Mat.ncols, List.length_map, hdl]
    · intro c hc
      simp only [List.map_map, List.mem_map, Function.comp] at hc
      obtain ⟨t, ht, rfl⟩ := hc
      have := hlen t ht
      simp [negMod]; omega
    · intro c hc x hx
      simp only [List.map_map, List.mem_map, Function.comp] at hc
      obtain ⟨t, ht, rfl⟩ := hc
      obtain ⟨y, -, rfl⟩ := List.mem_map.1 (List.mem_of_mem_take (List.mem_of_mem_drop hx))
      exact ⟨Int.emod_nonneg _ hpz.ne', Int.emod_lt_of_pos _ hpz⟩
    · intro a row r ha hra
      have hac := (List.getElem?_eq_some_iff.1 ha).1
      have hD := (t3 a row r ha hra).1
      -- entries of the two matrices
      have eγ : ∀ k < im.dim, Mat.z E.p ⟨im.dim, ((T.cols.drop (im.dim + hom.dim)).map
          (negMod E.p)).map fun t => t.take im.dim⟩ k a = - T.z E.p k (im.dim + hom.dim + a) := by
        intro k hk
        unfold Mat.z Mat.get
        rw [List.map_map, getD_map_lt (by rw [hdl]; exact hac)]
        have := hget a hac
        rw [List_getD_eq_getElem _ _ (by rw [hdl]; exact hac)] at this
        simp only [Function.comp, this]
        rw [List.getD_eq_getElem?_getD, List.getElem?_take_of_lt hk, ← List.getD_eq_getElem?_getD,
          negMod_getD, ZMod.intCast_mod]
        push_cast; rfl
      have eβ : ∀ k < hom.dim, Mat.z E.p ⟨hom.dim, ((T.cols.drop (im.dim + hom.dim)).map
          (negMod E.p)).map fun t => (t.take (im.dim + hom.dim)).drop im.dim⟩ k a =
          - T.z E.p (im.dim + k) (im.dim + hom.dim + a) := by
        intro k hk
        unfold Mat.z Mat.get
        rw [List.map_map, getD_map_lt (by rw [hdl]; exact hac)]
        have := hget a hac
        rw [List_getD_eq_getElem _ _ (by rw [hdl]; exact hac)] at this
        simp only [Function.comp, this]
        rw [List.getD_eq_getElem?_getD, List.getElem?_drop, List.getElem?_take_of_lt (by omega),
          ← List.getD_eq_getElem?_getD, negMod_getD, ZMod.intCast_mod]
        push_cast; rfl
      refine ⟨?_, ?_, ?_⟩
      · rw [hD.sum]
        congr 1
        · exact Finset.sum_congr rfl fun k hk => by rw [eγ k (mem_range.1 hk)]
        · exact Finset.sum_congr rfl fun k hk => by rw [eβ k (mem_range.1 hk)]
      · intro k hk hne
        rw [eγ k hk] at hne
        exact hD.im_born k hk hne
      · intro k hk hne
        rw [eβ k hk] at hne
        exact hD.hom_born k hk hne
  · left
    rw [hT]
    refine ⟨rfl, ?_⟩
    by_contra hc
    push Not at hc
    obtain ⟨RT, hRT⟩ := g2.2 fun a row r ha hra => hc a row r ha hra
    rw [hT] at hRT; cases hRT

end

end Permaviss
