import Verif.Lemmas.FirstDiff

/-!
# The square of the first differential
-/

namespace Permaviss

open Finset

attribute [-instance] instMulZeroClassOfSemiring

section

variable {α : Type} [LinearOrder α] [Zero α] {rnd : α → α} {E : SSEnv α} {ρ : List ℕ → α}

/-- The Čech differential of chains on all the pieces of column `n + 1`, on piece `k`. -/
def SSEnv.cechSum (E : SSEnv α) (D : Mat) (n deg k : ℕ) (c : ℕ → ℕ → ZMod E.p) : ℕ → ZMod E.p :=
  ∑ l ∈ range (E.spx (n + 1)), E.cechOf D n deg k l (c l)

theorem cechOf_add (D : Mat) (n deg k l : ℕ) (c c' : ℕ → ZMod E.p) :
    E.cechOf D n deg k l (c + c') = E.cechOf D n deg k l c + E.cechOf D n deg k l c' := by
  funext j
  rw [Pi.add_apply]
  unfold SSEnv.cechOf
  cases (E.G n k deg)[j]? with
  | none => simp
  | some s =>
    dsimp only
    split
    · rw [Pi.add_apply, mul_add]
    · simp

theorem cechOf_smul (D : Mat) (n deg k l : ℕ) (x : ZMod E.p) (c : ℕ → ZMod E.p) :
    E.cechOf D n deg k l (x • c) = x • E.cechOf D n deg k l c := by
  funext j
  rw [Pi.smul_apply]
  unfold SSEnv.cechOf
  cases (E.G n k deg)[j]? with
  | none => simp
  | some s =>
    dsimp only
    split
    · rw [Pi.smul_apply, smul_eq_mul, smul_eq_mul]; ring
    · simp

/-- The Čech differential of one piece, as a linear map. -/
def SSEnv.cechL (E : SSEnv α) (D : Mat) (n deg k l : ℕ) :
    (ℕ → ZMod E.p) →ₗ[ZMod E.p] (ℕ → ZMod E.p) where
  toFun := E.cechOf D n deg k l
  map_add' := cechOf_add D n deg k l
  map_smul' := cechOf_smul D n deg k l

theorem cechSum_apply (h : SSOK rnd E ρ) {n deg k : ℕ} (D : Mat) (hn : n + 1 < E.columns.length)
    (c : ℕ → ℕ → ZMod E.p) {j : ℕ} (hj : j < (E.G n k deg).length) :
    E.cechSum D n deg k c j = ∑ l ∈ range (E.spx (n + 1)),
      ∑ i ∈ range (E.G (n + 1) l deg).length, cechCoef E D n deg k l j i * c l i := by
  unfold SSEnv.cechSum
  rw [Finset.sum_apply]
  exact Finset.sum_congr rfl fun l hl => cechOf_eq h D hn (mem_range.1 hl) (c l) hj

theorem cechSum_of_le {n deg k : ℕ} (D : Mat) (c : ℕ → ℕ → ZMod E.p) {j : ℕ}
    (hj : (E.G n k deg).length ≤ j) : E.cechSum D n deg k c j = 0 := by
  unfold SSEnv.cechSum
  rw [Finset.sum_apply]
  exact Finset.sum_eq_zero fun l _ => cechOf_of_le D (c l) hj

/-- The Čech differential has square zero. -/
theorem cechSum_cechSum (h : SSOK rnd E ρ) {n deg : ℕ} {D D' : Mat} (hD : E.nerveDiff[n]? = some D)
    (hD' : E.nerveDiff[n + 1]? = some D') (hn : n + 2 < E.columns.length) (hdeg : deg ≤ E.rows) {k : ℕ}
    (hk : k < E.spx n) (c : ℕ → ℕ → ZMod E.p) :
    E.cechSum D n deg k (fun l => E.cechSum D' (n + 1) deg l c) = 0 := by
  funext j
  rcases Nat.lt_or_ge j (E.G n k deg).length with hj | hj
  · rw [cechSum_apply h D (by omega) _ hj]
    refine Eq.trans ?_ (cech_cech h hD hD' hn hdeg hk hj c)
    refine Finset.sum_congr rfl fun l hl => Finset.sum_congr rfl fun i hi => ?_
    rw [cechSum_apply h D' hn c (mem_range.1 hi)]
  · exact cechSum_of_le D _ hj

/-- The boundary on a piece. -/
noncomputable def SSEnv.bd (E : SSEnv α) (n k deg : ℕ) : (ℕ → ZMod E.p) →ₗ[ZMod E.p] (ℕ → ZMod E.p) :=
  match E.piece n k with
  | .ok o => bdry E.p o.diff deg
  | .error _ => 0

theorem bd_eq {n k : ℕ} {o : LocalOut α} (ho : E.piece n k = .ok o) (deg : ℕ) :
    E.bd n k deg = bdry E.p o.diff deg := by unfold SSEnv.bd; rw [ho]

/-- The Čech differential and the boundary anticommute. -/
theorem cechSum_bd (h : SSOK rnd E ρ) {n deg : ℕ} {D : Mat} (hD : E.nerveDiff[n]? = some D)
    (hn : n + 1 < E.columns.length) (hdeg : deg < E.rows) {k : ℕ} (hk : k < E.spx n)
    (c : ℕ → ℕ → ZMod E.p) :
    E.cechSum D n deg k (fun l => E.bd (n + 1) l (deg + 1) (c l)) =
      - E.bd n k (deg + 1) (E.cechSum D n (deg + 1) k c) := by
  obtain ⟨o, pts, ho, -⟩ := h.piece n (by omega) k hk
  rw [bd_eq ho, eq_neg_iff_add_eq_zero]
  funext j
  rw [Pi.add_apply, bdry_piece h (by omega) hk hdeg ho]
  rcases Nat.lt_or_ge j (E.G n k deg).length with hj | hj
  · rw [if_pos hj, cechSum_apply h D hn _ hj]
    refine Eq.trans ?_ (cech_vert h hD hn hdeg hk hj c)
    congr 1
    · refine Finset.sum_congr rfl fun l hl => Finset.sum_congr rfl fun i hi => ?_
      have hl' := mem_range.1 hl
      obtain ⟨o', pts', ho', -⟩ := h.piece (n + 1) hn l hl'
      rw [bd_eq ho', bdry_piece h hn hl' hdeg ho', if_pos (mem_range.1 hi)]
    · refine Finset.sum_congr rfl fun b hb => ?_
      rw [cechSum_apply h D hn c (mem_range.1 hb)]
  · rw [if_neg (by omega), cechSum_of_le D _ hj]; simp

/-- A chain whose simplices are present at `r`. -/
def SSEnv.PresentAt (E : SSEnv α) (ρ : List ℕ → α) (n k deg : ℕ) (w : ℕ → ZMod E.p) (r : α) : Prop :=
  ∀ i, w i ≠ 0 → ∃ s, (E.G n k deg)[i]? = some s ∧ ρ s ≤ r

theorem PresentAt.sum {ι : Type} {n k deg : ℕ} {r : α} (S : Finset ι) (f : ι → ℕ → ZMod E.p)
    (hf : ∀ i ∈ S, E.PresentAt ρ n k deg (f i) r) : E.PresentAt ρ n k deg (∑ i ∈ S, f i) r := by
  intro j hj
  rw [Finset.sum_apply] at hj
  obtain ⟨i, hi, hne⟩ := Finset.exists_ne_zero_of_sum_ne_zero hj
  exact hf i hi j hne

theorem PresentAt.smul {n k deg : ℕ} {r : α} {w : ℕ → ZMod E.p} (x : ZMod E.p)
    (hw : E.PresentAt ρ n k deg w r) : E.PresentAt ρ n k deg (x • w) r := by
  intro j hj
  exact hw j fun h0 => hj (by rw [Pi.smul_apply, h0, smul_zero])

theorem PresentAt.mono {n k deg : ℕ} {r r' : α} {w : ℕ → ZMod E.p} (hr : r ≤ r')
    (hw : E.PresentAt ρ n k deg w r) : E.PresentAt ρ n k deg w r' := by
  intro j hj
  obtain ⟨s, hs, h⟩ := hw j hj
  exact ⟨s, hs, h.trans hr⟩

theorem PresentAt.cechSum {n k deg : ℕ} {D : Mat} {r : α} {c : ℕ → ℕ → ZMod E.p}
    (hc : ∀ l < E.spx (n + 1), E.PresentAt ρ (n + 1) l deg (c l) r) :
    E.PresentAt ρ n k deg (E.cechSum D n deg k c) r := by
  refine PresentAt.sum _ _ fun l hl => ?_
  intro j hj
  unfold SSEnv.cechOf at hj
  cases hs : (E.G n k deg)[j]? with
  | none => rw [hs] at hj; exact absurd rfl hj
  | some s =>
    rw [hs] at hj
    dsimp only at hj
    refine ⟨s, rfl, ?_⟩
    by_cases hm : s ∈ E.G (n + 1) l deg
    · rw [if_pos hm] at hj
      obtain ⟨t, ht, htr⟩ := hc l (mem_range.1 hl) _ fun h0 => hj (by rw [h0, mul_zero])
      have hlt := List.idxOf_lt_length_of_mem hm
      rw [List.getElem?_eq_getElem hlt, List.getElem_idxOf hlt] at ht
      rw [Option.some.inj ht]; exact htr
    · rw [if_neg hm] at hj; exact absurd rfl hj

theorem LiftData.present_iff {n idx deg : ℕ} {o : LocalOut α}
    {pts : List ℕ} {v : ℕ → ℕ → ZMod E.p} {im hom : Basis α}
    (L : LiftData rnd E ρ n idx deg o pts v im hom) {e : ℕ} (he : e ≤ o.cpx.simplices.length)
    (w : ℕ → ZMod E.p) (r : α) :
    E.PresentAt ρ n idx e w r ↔ w ∈ chainsAt E.p o.cpx.allRads e r := by
  have hG : E.G n idx e = o.glob pts e := by simp only [SSEnv.G, L.piece, L.pts_eq]
  refine forall_congr' fun i => imp_congr_right fun _ => ?_
  unfold Born
  rw [L.ok.rad e he, hG, List.getElem?_map]
  constructor
  · rintro ⟨s, hs, h⟩; exact ⟨ρ s, by rw [hs]; rfl, h⟩
  · rintro ⟨q, hq, h⟩
    obtain ⟨s, hs, rfl⟩ := Option.map_eq_some_iff.1 hq
    exact ⟨s, hs, h⟩

/-- A combination of classes that bounds at `r` only has classes that are dead at `r`, among those born
by then. -/
theorem LiftData.dead (hp : E.p.Prime) {n idx deg : ℕ} {o : LocalOut α}
    {pts : List ℕ} {v : ℕ → ℕ → ZMod E.p} {im hom : Basis α}
    (L : LiftData rnd E ρ n idx deg o pts v im hom) (hdeg : deg < E.rows) {r : α} (hr : r < E.maxR)
    {x : ℕ → ZMod E.p} (hx : ∀ a < hom.dim, x a ≠ 0 → ∃ b, hom.barcode[a]? = some b ∧ b.1 ≤ r)
    {w : ℕ → ZMod E.p} (hw : E.PresentAt ρ n idx (deg + 1) w r)
    (hsum : ∑ a ∈ range hom.dim, x a • hom.chain E.p a = bdry E.p o.diff (deg + 1) w) :
    ∀ a < hom.dim, x a ≠ 0 → ∃ b, hom.barcode[a]? = some b ∧ b.1 ≤ r ∧ b.2 ≤ r := by
  intro a ha hne
  obtain ⟨b, hb, hbr⟩ := hx a ha hne
  refine ⟨b, hb, hbr, ?_⟩
  by_contra hnot
  have halive : AliveBar hom.barcode a r := ⟨b, hb, hbr, not_le.1 hnot⟩
  obtain ⟨β, hβ⟩ := C23_alive_bars_basis_of_homology hp rnd L.ok.filt o.ph L.ok.run deg hom L.hom_get
    r hr
  have hlev : deg + 1 ≤ o.cpx.simplices.length := by have := L.ok.levels; omega
  have hcy : ∀ c < hom.dim, x c ≠ 0 → hom.chain E.p c ∈ cyclesAt E.p o.diff o.cpx.allRads deg r := by
    intro c hc hcne
    obtain ⟨b', hb', hbr'⟩ := hx c hc hcne
    obtain ⟨g1, g2, -⟩ := C21_representatives_are_cycles hp rnd L.ok.filt o.ph L.ok.run deg hom
      L.hom_get c b' hb'
    exact cyclesAt_mono E.p o.diff o.cpx.allRads deg hbr' ⟨g2, g1⟩
  let N := (boundariesAt E.p o.diff o.cpx.allRads deg r).submoduleOf
    (cyclesAt E.p o.diff o.cpx.allRads deg r)
  -- the class of the sum
  let cyc : ℕ → ↥(cyclesAt E.p o.diff o.cpx.allRads deg r) := fun c =>
    if hc : c < hom.dim ∧ x c ≠ 0 then ⟨hom.chain E.p c, hcy c hc.1 hc.2⟩ else 0
  have hcycv : ∀ c ∈ range hom.dim, x c • (cyc c).1 = x c • hom.chain E.p c := by
    intro c hc
    by_cases h0 : x c = 0
    · rw [h0, zero_smul, zero_smul]
    · simp only [cyc]; rw [dif_pos ⟨mem_range.1 hc, h0⟩]
  have hzero : N.mkQ (∑ c ∈ range hom.dim, x c • cyc c) = 0 := by
    rw [Submodule.mkQ_apply, Submodule.Quotient.mk_eq_zero]
    change ((∑ c ∈ range hom.dim, x c • cyc c : ↥(cyclesAt E.p o.diff o.cpx.allRads deg r)) :
      ℕ → ZMod E.p) ∈ boundariesAt E.p o.diff o.cpx.allRads deg r
    rw [Submodule.coe_sum, Finset.sum_congr rfl fun c hc => by rw [Submodule.coe_smul, hcycv c hc], hsum]
    exact ⟨w, (L.present_iff hlev w r).1 hw, rfl⟩
  rw [map_sum] at hzero
  -- its coordinate on the alive class `a`
  have hrep := congrArg (fun y => β.repr y ⟨a, halive⟩) hzero
  simp only [map_sum, map_smul, map_zero, Finsupp.coe_finset_sum, Finset.sum_apply, Finsupp.coe_smul,
    Pi.smul_apply, Finsupp.coe_zero, Pi.zero_apply] at hrep
  rw [Finset.sum_eq_single a] at hrep
  · have hca : N.mkQ (cyc a) = β ⟨a, halive⟩ := by
      obtain ⟨hz, he⟩ := hβ ⟨a, halive⟩
      rw [he]
      simp only [cyc]
      rw [dif_pos ⟨ha, hne⟩]
      rfl
    rw [hca, Module.Basis.repr_self, Finsupp.single_eq_same, smul_eq_mul, mul_one] at hrep
    exact hne hrep
  · intro c hc hca
    by_cases h0 : x c = 0
    · rw [h0, zero_smul]
    · have hc' := mem_range.1 hc
      obtain ⟨b', hb', hbr'⟩ := hx c hc' h0
      by_cases hal : r < b'.2
      · have hcc : N.mkQ (cyc c) = β ⟨c, b', hb', hbr', hal⟩ := by
          obtain ⟨hz, he⟩ := hβ ⟨c, b', hb', hbr', hal⟩
          rw [he]
          simp only [cyc]
          rw [dif_pos ⟨hc', h0⟩]
          rfl
        rw [hcc, Module.Basis.repr_self, Finsupp.single_eq_of_ne, smul_zero]
        intro hcon
        exact hca (congrArg Subtype.val hcon).symm
      · have hcc : N.mkQ (cyc c) = 0 := by
          rw [Submodule.mkQ_apply, Submodule.Quotient.mk_eq_zero]
          change (cyc c).1 ∈ boundariesAt E.p o.diff o.cpx.allRads deg r
          simp only [cyc]
          rw [dif_pos ⟨hc', h0⟩]
          have h2 := (C22_finite_bars_die_as_boundaries hp rnd L.ok.filt o.ph L.ok.run deg hom
            L.hom_get c b' hb').1 ((not_lt.1 hal).trans_lt hr)
          obtain ⟨w', hw', e⟩ := h2
          exact ⟨w', fun i hi => by
            obtain ⟨q, hq, hqr⟩ := hw' i hi
            exact ⟨q, hq, hqr.trans (not_lt.1 hal)⟩, e⟩
        rw [hcc, map_zero, Finsupp.coe_zero, Pi.zero_apply, smul_zero]
  · intro hc; exact absurd (mem_range.2 ha) hc

theorem cechSum_single {n deg k l : ℕ} (D : Mat) (hl : l < E.spx (n + 1)) (c : ℕ → ZMod E.p) :
    E.cechSum D n deg k (fun l' => if l' = l then c else 0) = E.cechOf D n deg k l c := by
  unfold SSEnv.cechSum
  rw [Finset.sum_eq_single l]
  · beta_reduce; rw [if_pos rfl]
  · intro l' _ hne
    beta_reduce
    rw [if_neg hne]
    exact map_zero (E.cechL D n deg k l')
  · intro hc; exact absurd (mem_range.2 hl) hc

theorem PresentAt.cechOf {n k l deg : ℕ} {D : Mat} (hl : l < E.spx (n + 1)) {r : α} {c : ℕ → ZMod E.p}
    (hc : E.PresentAt ρ (n + 1) l deg c r) : E.PresentAt ρ n k deg (E.cechOf D n deg k l c) r := by
  rw [← cechSum_single D hl c]
  refine PresentAt.cechSum fun l' _ => ?_
  split
  · next he => subst he; exact hc
  · exact fun i hi => absurd rfl hi

theorem cechOf_bd (h : SSOK rnd E ρ) {n deg : ℕ} {D : Mat} (hD : E.nerveDiff[n]? = some D)
    (hn : n + 1 < E.columns.length) (hdeg : deg < E.rows) {k l : ℕ} (hk : k < E.spx n)
    (hl : l < E.spx (n + 1)) (c : ℕ → ZMod E.p) :
    E.cechOf D n deg k l (E.bd (n + 1) l (deg + 1) c) =
      - E.bd n k (deg + 1) (E.cechOf D n (deg + 1) k l c) := by
  have := cechSum_bd h hD hn hdeg hk (fun l' => if l' = l then c else 0)
  rw [cechSum_single D hl] at this
  rw [← this, ← cechSum_single D hl]
  congr 1
  funext l'
  split
  · next he => subst he; rfl
  · rw [map_zero]

theorem PresentAt.neg {n k deg : ℕ} {r : α} {w : ℕ → ZMod E.p} (hw : E.PresentAt ρ n k deg w r) :
    E.PresentAt ρ n k deg (-w) r := by
  intro j hj
  exact hw j fun h0 => hj (by rw [Pi.neg_apply, h0, neg_zero])

theorem PresentAt.add {n k deg : ℕ} {r : α} {w w' : ℕ → ZMod E.p} (hw : E.PresentAt ρ n k deg w r)
    (hw' : E.PresentAt ρ n k deg w' r) : E.PresentAt ρ n k deg (w + w') r := by
  intro j hj
  by_cases h0 : w j = 0
  · exact hw' j fun h1 => hj (by rw [Pi.add_apply, h0, h1, add_zero])
  · exact hw j h0

/-- Summing over the classes of a column one piece after the other. -/
theorem sum_classStart {β : Type} [AddCommMonoid β] (n deg m : ℕ) (f : ℕ → β) :
    ∑ t ∈ range (E.classStart n deg m), f t =
      ∑ l ∈ range m, ∑ a ∈ range (E.classes n deg l), f (E.classStart n deg l + a) := by
  induction m with
  | zero => simp [SSEnv.classStart]
  | succ m ih => rw [classStart_succ, Finset.sum_range_add, ih, Finset.sum_range_succ]

/-- A generator of the first page maps to generators that die no later. -/
theorem d1_death (h : SSOK rnd E ρ) {n deg : ℕ} {D : Mat} (hD : E.nerveDiff[n]? = some D)
    (hn : n + 1 < E.columns.length) (hdeg : deg < E.rows) {k l : ℕ} (hk : k < E.spx n)
    (hl : l < E.spx (n + 1)) {hom hom' : Basis α} (hh : E.hom0 (n + 1) l deg = .ok hom)
    (hh' : E.hom0 n k deg = .ok hom') {a : ℕ} {b : α × α} (hb : hom.barcode[a]? = some b)
    {w β : ℕ → ZMod E.p} (hz : E.ZigZag ρ n deg k (E.cechOf D n deg k l (hom.chain E.p a)) b.1 w β)
    {c : ℕ} (hc : c < hom'.dim) (hne : β c ≠ 0) :
    ∃ b', hom'.barcode[c]? = some b' ∧ b'.1 ≤ b.1 ∧ b'.2 ≤ b.2 := by
  obtain ⟨o, hom'', ho, hh'', heq, hborn⟩ := hz.closes
  rw [hh'] at hh''
  obtain rfl := Except.ok.inj hh''
  obtain ⟨b', hb', hbr⟩ := hborn c hc hne
  refine ⟨b', hb', hbr, ?_⟩
  obtain ⟨-, hb'm⟩ := (h.rep_cycle (by omega) hdeg hk hh' hb').2
  obtain ⟨hbb, hbm⟩ := (h.rep_cycle hn hdeg hl hh hb).2
  rcases hbm.lt_or_eq with hlt | he
  swap
  · rw [he]; exact hb'm
  obtain ⟨o1, pts1, v1, im1, hom1, L1⟩ := h.liftData hn hl hdeg.le
  have : hom1 = hom := by have := L1.hom0; rw [hh] at this; exact (Except.ok.inj this).symm
  subst this
  obtain ⟨o2, pts2, v2, im2, hom2, L2⟩ := h.liftData (n := n) (by omega) hk hdeg.le
  have : hom2 = hom' := by have := L2.hom0; rw [hh'] at this; exact (Except.ok.inj this).symm
  subst this
  have : o2 = o := by have := L2.piece; rw [ho] at this; exact (Except.ok.inj this).symm
  subst this
  obtain ⟨y, hy, hye⟩ := (C22_finite_bars_die_as_boundaries h.prime rnd L1.ok.filt o1.ph L1.ok.run deg
    hom1 L1.hom_get a b hb).1 hlt
  have hlev1 : deg + 1 ≤ o1.cpx.simplices.length := by have := L1.ok.levels; omega
  have hy' : E.PresentAt ρ (n + 1) l (deg + 1) y b.2 := (L1.present_iff hlev1 y b.2).2 hy
  have key : ∑ a ∈ range hom2.dim, β a • hom2.chain E.p a =
      bdry E.p o2.diff (deg + 1) (w + - E.cechOf D n (deg + 1) k l y) := by
    rw [← heq, map_add, map_neg]
    congr 1
    have := cechOf_bd h hD hn hdeg hk hl y
    rw [bd_eq L1.piece, bd_eq ho] at this
    rw [← this, hye]
  obtain ⟨b2, hb2, -, hd⟩ := L2.dead h.prime hdeg hlt (x := β)
    (fun c hc hne => by
      obtain ⟨b', hb', h1⟩ := hborn c hc hne
      exact ⟨b', hb', h1.trans hbb.le⟩)
    (PresentAt.add (PresentAt.mono hbb.le hz.present) (PresentAt.neg (PresentAt.cechOf hl hy'))) key c hc hne
  rw [hb'] at hb2
  rw [Option.some.inj hb2]
  exact hd

/-- The composition of two first differentials is zero. -/
theorem d1_d1 (h : SSOK rnd E ρ) {n deg : ℕ} {D D' : Mat} (hD : E.nerveDiff[n]? = some D)
    (hD' : E.nerveDiff[n + 1]? = some D') (hn : n + 2 < E.columns.length) (hdeg : deg < E.rows)
    {M N : Mat} (hM : firstDifferential E n deg = .ok M) (hN : firstDifferential E (n + 1) deg = .ok N)
    {q : ℕ} (hq : q < E.spx (n + 2)) {hom : Basis α} (hh : E.hom0 (n + 2) q deg = .ok hom) {a : ℕ}
    {b : α × α} (hb : hom.barcode[a]? = some b) {k : ℕ} (hk : k < E.spx n) {hom' : Basis α}
    (hh' : E.hom0 n k deg = .ok hom') {d : ℕ} (hd : d < hom'.dim)
    (hne : ∑ m ∈ range (E.pageOne deg (n + 1)), M.z E.p (E.classStart n deg k + d) m *
      N.z E.p m (E.classStart (n + 2) deg q + a) ≠ 0) :
    ∃ b', hom'.barcode[d]? = some b' ∧ b'.1 ≤ b.1 ∧ b'.2 ≤ b.1 := by
  obtain ⟨M', m1, -, -, -, -, mz, -⟩ := firstDifferential_spec h hD (by omega) hdeg
  obtain rfl : M = M' := Except.ok.inj (hM.symm.trans m1)
  obtain ⟨N', n1, -, -, -, -, nz, -⟩ := firstDifferential_spec h hD' hn hdeg
  obtain rfl : N = N' := Except.ok.inj (hN.symm.trans n1)
  obtain ⟨-, hbb, hbm⟩ := h.rep_cycle hn hdeg hq hh hb
  have hr : b.1 < E.maxR := hbb.trans_le hbm
  set t0 := E.classStart (n + 2) deg q + a with ht0
  -- first zig-zag
  have z1 : ∀ l, ∃ w, l < E.spx (n + 1) →
      E.ZigZag ρ (n + 1) deg l (E.cechOf D' (n + 1) deg l q (hom.chain E.p a)) b.1 w
        fun c => N.z E.p (E.classStart (n + 1) deg l + c) t0 := by
    intro l
    by_cases hl : l < E.spx (n + 1)
    · obtain ⟨w, hw⟩ := nz q hq hom hh a b hb l hl
      exact ⟨w, fun _ => hw⟩
    · exact ⟨0, fun hc => absurd hc hl⟩
  choose w hw using z1
  obtain ⟨o, pts, v, im, hom2, L⟩ := h.liftData (n := n) (by omega) hk hdeg.le
  have : hom2 = hom' := by have := L.hom0; rw [hh'] at this; exact (Except.ok.inj this).symm
  subst this
  have hcl : E.classes n deg k = hom2.dim := L.classes_eq
  -- the bases of column `n + 1`
  have hB : ∀ l, ∃ B : Basis α, l < E.spx (n + 1) → E.hom0 (n + 1) l deg = .ok B ∧
      B.barcode.length = B.dim ∧ E.classes (n + 1) deg l = B.dim := by
    intro l
    by_cases hl : l < E.spx (n + 1)
    · obtain ⟨o', pts', v', im', B, L'⟩ := h.liftData (n := n + 1) (by omega) hl hdeg.le
      exact ⟨B, fun _ => ⟨L'.hom0, L'.hom_ok.bars, L'.classes_eq⟩⟩
    · exact ⟨hom2, fun hc => absurd hc hl⟩
  choose B hB using hB
  -- second zig-zag
  have z2 : ∀ l c, ∃ w, l < E.spx (n + 1) → c < (B l).dim → ∃ b', (B l).barcode[c]? = some b' ∧
      E.ZigZag ρ n deg k (E.cechOf D n deg k l ((B l).chain E.p c)) b'.1 w
        fun x => M.z E.p (E.classStart n deg k + x) (E.classStart (n + 1) deg l + c) := by
    intro l c
    by_cases hl : l < E.spx (n + 1)
    · by_cases hc : c < (B l).dim
      · obtain ⟨g1, g2, -⟩ := hB l hl
        have hc' : c < (B l).barcode.length := by omega
        obtain ⟨y, hy⟩ := mz l hl (B l) g1 c _ (List.getElem?_eq_getElem hc') k hk
        exact ⟨y, fun _ _ => ⟨_, List.getElem?_eq_getElem hc', hy⟩⟩
      · exact ⟨0, fun _ hx => absurd hx hc⟩
    · exact ⟨0, fun hc => absurd hc hl⟩
  choose y hy using z2
  -- births
  have hbornN : ∀ l < E.spx (n + 1), ∀ c < (B l).dim,
      N.z E.p (E.classStart (n + 1) deg l + c) t0 ≠ 0 → ∀ b', (B l).barcode[c]? = some b' → b'.1 ≤ b.1 := by
    intro l hl c hc hne b' hb'
    obtain ⟨o', B', ho', hB', -, hborn⟩ := (hw l hl).closes
    obtain rfl : B l = B' := Except.ok.inj ((hB l hl).1.symm.trans hB')
    obtain ⟨b2, hb2, h2⟩ := hborn c hc hne
    rw [hb'] at hb2
    rw [Option.some.inj hb2]; exact h2
  let x : ℕ → ZMod E.p := fun d => ∑ l ∈ range (E.spx (n + 1)), ∑ c ∈ range (B l).dim,
    M.z E.p (E.classStart n deg k + d) (E.classStart (n + 1) deg l + c) *
      N.z E.p (E.classStart (n + 1) deg l + c) t0
  have hx : ∀ d, ∑ m ∈ range (E.pageOne deg (n + 1)), M.z E.p (E.classStart n deg k + d) m *
      N.z E.p m t0 = x d := by
    intro d
    rw [h.pageOne_eq (by omega) hdeg, sum_classStart]
    refine Finset.sum_congr rfl fun l hl => ?_
    rw [(hB l (mem_range.1 hl)).2.2]
  rw [hx] at hne
  have hxborn : ∀ d < hom2.dim, x d ≠ 0 → ∃ b', hom2.barcode[d]? = some b' ∧ b'.1 ≤ b.1 := by
    intro d hd hxd
    obtain ⟨l, hl, h1⟩ := Finset.exists_ne_zero_of_sum_ne_zero hxd
    obtain ⟨c, hc, h2⟩ := Finset.exists_ne_zero_of_sum_ne_zero h1
    have hl' := mem_range.1 hl
    have hc' := mem_range.1 hc
    obtain ⟨b', hb', hzz⟩ := hy l c hl' hc'
    obtain ⟨o', B', ho', hB', -, hborn⟩ := hzz.closes
    obtain rfl : hom2 = B' := Except.ok.inj (hh'.symm.trans hB')
    obtain ⟨b2, hb2, h3⟩ := hborn d hd (left_ne_zero_of_mul h2)
    exact ⟨b2, hb2, h3.trans (hbornN l hl' c hc' (right_ne_zero_of_mul h2) b' hb')⟩
  -- the chain bounding the combination
  let W : ℕ → ZMod E.p := (∑ l ∈ range (E.spx (n + 1)), ∑ c ∈ range (B l).dim,
    N.z E.p (E.classStart (n + 1) deg l + c) t0 • y l c) + - E.cechSum D n (deg + 1) k w
  have hW : E.PresentAt ρ n k (deg + 1) W b.1 := by
    refine PresentAt.add ?_ (PresentAt.neg (PresentAt.cechSum fun l hl => (hw l hl).present))
    refine PresentAt.sum _ _ fun l hl => PresentAt.sum _ _ fun c hc => ?_
    have hl' := mem_range.1 hl
    have hc' := mem_range.1 hc
    by_cases h0 : N.z E.p (E.classStart (n + 1) deg l + c) t0 = 0
    · rw [h0, zero_smul]; exact fun i hi => absurd rfl hi
    · obtain ⟨b', hb', hzz⟩ := hy l c hl' hc'
      exact PresentAt.smul _ (PresentAt.mono (hbornN l hl' c hc' h0 b' hb') hzz.present)
  have hy2 : ∀ l < E.spx (n + 1), ∀ c < (B l).dim,
      bdry E.p o.diff (deg + 1) (y l c) + E.cechOf D n deg k l ((B l).chain E.p c) =
        ∑ d ∈ range hom2.dim, M.z E.p (E.classStart n deg k + d) (E.classStart (n + 1) deg l + c) •
          hom2.chain E.p d := by
    intro l hl c hc
    obtain ⟨b', hb', hzz⟩ := hy l c hl hc
    obtain ⟨o', B', ho', hB', he, -⟩ := hzz.closes
    obtain rfl : hom2 = B' := Except.ok.inj (hh'.symm.trans hB')
    obtain rfl : o = o' := Except.ok.inj (L.piece.symm.trans ho')
    exact he
  have hw2 : ∀ l < E.spx (n + 1), E.bd (n + 1) l (deg + 1) (w l) +
      E.cechOf D' (n + 1) deg l q (hom.chain E.p a) =
        ∑ c ∈ range (B l).dim, N.z E.p (E.classStart (n + 1) deg l + c) t0 • (B l).chain E.p c := by
    intro l hl
    obtain ⟨o', B', ho', hB', he, -⟩ := (hw l hl).closes
    obtain rfl : B l = B' := Except.ok.inj ((hB l hl).1.symm.trans hB')
    rw [bd_eq ho']
    exact he
  have hsum : ∑ d ∈ range hom2.dim, x d • hom2.chain E.p d = bdry E.p o.diff (deg + 1) W := by
    have e1 : ∑ d ∈ range hom2.dim, x d • hom2.chain E.p d =
        ∑ l ∈ range (E.spx (n + 1)), ∑ c ∈ range (B l).dim,
          N.z E.p (E.classStart (n + 1) deg l + c) t0 •
            (bdry E.p o.diff (deg + 1) (y l c) + E.cechOf D n deg k l ((B l).chain E.p c)) := by
      have : ∀ d ∈ range hom2.dim, x d • hom2.chain E.p d = ∑ l ∈ range (E.spx (n + 1)),
          ∑ c ∈ range (B l).dim, N.z E.p (E.classStart (n + 1) deg l + c) t0 •
            (M.z E.p (E.classStart n deg k + d) (E.classStart (n + 1) deg l + c) •
              hom2.chain E.p d) := by
        intro d _
        simp only [x]
        rw [Finset.sum_smul]
        refine Finset.sum_congr rfl fun l _ => ?_
        rw [Finset.sum_smul]
        refine Finset.sum_congr rfl fun c _ => ?_
        rw [smul_smul, mul_comm]
      rw [Finset.sum_congr rfl this, Finset.sum_comm]
      refine Finset.sum_congr rfl fun l hl => ?_
      rw [Finset.sum_comm]
      refine Finset.sum_congr rfl fun c hc => ?_
      rw [hy2 l (mem_range.1 hl) c (mem_range.1 hc), Finset.smul_sum]
    have e2 : ∑ l ∈ range (E.spx (n + 1)), ∑ c ∈ range (B l).dim,
          N.z E.p (E.classStart (n + 1) deg l + c) t0 • E.cechOf D n deg k l ((B l).chain E.p c) =
        - bdry E.p o.diff (deg + 1) (E.cechSum D n (deg + 1) k w) := by
      have hz := cechSum_cechSum h hD hD' hn hdeg.le hk (fun q' => if q' = q then hom.chain E.p a else 0)
      have hv := cechSum_bd h hD (by omega) hdeg hk w
      rw [bd_eq L.piece] at hv
      rw [← hv]
      have : ∀ l ∈ range (E.spx (n + 1)), ∑ c ∈ range (B l).dim,
          N.z E.p (E.classStart (n + 1) deg l + c) t0 • E.cechOf D n deg k l ((B l).chain E.p c) =
          E.cechOf D n deg k l (E.bd (n + 1) l (deg + 1) (w l)) +
            E.cechOf D n deg k l (E.cechSum D' (n + 1) deg l
              (fun q' => if q' = q then hom.chain E.p a else 0)) := by
        intro l hl
        rw [cechSum_single D' hq, ← cechOf_add, hw2 l (mem_range.1 hl)]
        change _ = E.cechL D n deg k l _
        rw [map_sum]
        refine Finset.sum_congr rfl fun c _ => ?_
        rw [map_smul]; rfl
      rw [Finset.sum_congr rfl this, Finset.sum_add_distrib]
      unfold SSEnv.cechSum at hz ⊢
      rw [hz, add_zero]
    rw [e1]
    simp only [W]
    rw [map_add, map_neg, ← e2]
    rw [map_sum, ← Finset.sum_add_distrib]
    refine Finset.sum_congr rfl fun l _ => ?_
    rw [map_sum, ← Finset.sum_add_distrib]
    refine Finset.sum_congr rfl fun c _ => ?_
    rw [map_smul, smul_add]
  exact L.dead h.prime hdeg hr hxborn hW hsum d hd hne

theorem SSOK.firstBars_empty (h : SSOK rnd E ρ) {n deg : ℕ} (hn : n < E.columns.length)
    (h0 : E.spx n = 0) : E.firstBars deg n = [] := by
  obtain ⟨c, hc, hlen, hcol⟩ := h.column n hn
  have hnil : c.outs = [] := List.length_eq_zero_iff.1 (by rw [hlen, h0])
  unfold addOutputFirst at hcol
  rw [if_pos hnil] at hcol
  have := Except.ok.inj hcol
  unfold SSEnv.firstBars
  rw [hc, ← this]
  dsimp only
  rw [List.getD_eq_getElem?_getD, List.getElem?_replicate]
  split <;> rfl

/-- A bar of the first page belongs to a class of a piece. -/
theorem SSOK.firstBars_class (h : SSOK rnd E ρ) {n deg : ℕ} (hn : n < E.columns.length)
    (hdeg : deg < E.rows) {t : ℕ} {b : α × α} (hb : (E.firstBars deg n)[t]? = some b) :
    ∃ l < E.spx n, ∃ hom a, E.hom0 n l deg = .ok hom ∧ a < hom.dim ∧ hom.barcode[a]? = some b ∧
      t = E.classStart n deg l + a := by
  have hlt := (List.getElem?_eq_some_iff.1 hb).1
  have hpos : 0 < E.spx n := by
    by_contra h0
    have := h.firstBars_empty hn (show E.spx n = 0 by omega) (deg := deg)
    rw [this] at hlt; simp at hlt
  rw [h.firstBars_length hn hpos hdeg] at hlt
  obtain ⟨l, hl, a, ha, rfl⟩ := class_index _ _ _ _ hlt
  obtain ⟨o, pts, v, im, hom, L⟩ := h.liftData hn hl hdeg.le
  rw [L.classes_eq] at ha
  rw [h.firstBars_get hn hdeg hl L.hom0 ha] at hb
  exact ⟨l, hl, hom, a, L.hom0, ha, hb, rfl⟩

theorem SSOK.firstBars_length' (h : SSOK rnd E ρ) {n deg : ℕ} (hn : n < E.columns.length)
    (hdeg : deg < E.rows) : (E.firstBars deg n).length = E.pageOne deg n := by
  rw [h.pageOne_eq hn hdeg]
  by_cases h0 : E.spx n = 0
  · rw [h.firstBars_empty hn h0, h0]; rfl
  · exact h.firstBars_length hn (by omega) hdeg

theorem firstDifferential_morphism (h : SSOK rnd E ρ) {n deg : ℕ} (hn : n + 1 < E.columns.length)
    (hdeg : deg < E.rows) (hne : E.firstBars deg (n + 1) ≠ []) :
    ∃ M, firstDifferential E n deg = .ok M ∧
      IsMorphism E.p (E.firstBars deg (n + 1)) (E.firstBars deg n) M := by
  obtain ⟨D, hD⟩ := h.hasDiff n (by omega)
  obtain ⟨M, a1, a2, a3, a4, a5, a6, -⟩ := firstDifferential_spec h hD hn hdeg
  have l1 := h.firstBars_length' (n := n) (by omega) hdeg
  have l2 := h.firstBars_length' hn hdeg
  have hpos : 0 < M.ncols := by
    rw [a2, ← l2]; exact List.length_pos_of_ne_nil hne
  have key : ∀ (r i : ℕ) (a b : α × α), (E.firstBars deg (n + 1))[i]? = some a →
      (E.firstBars deg n)[r]? = some b → M.z E.p r i ≠ 0 → b.1 ≤ a.1 ∧ b.2 ≤ a.2 := by
    intro r i a b ha hb hz
    obtain ⟨l, hl, hom, c, hh, hc, hb1, rfl⟩ := h.firstBars_class hn hdeg ha
    obtain ⟨k, hk, hom', c', hh', hc', hb2, rfl⟩ := h.firstBars_class (n := n) (by omega) hdeg hb
    obtain ⟨w, hw⟩ := a6 l hl hom hh c a hb1 k hk
    obtain ⟨b', hb', h1, h2⟩ := d1_death h hD hn hdeg hk hl hh hh' hb1 hw hc' hz
    rw [hb2] at hb'
    obtain rfl := Option.some.inj hb'
    exact ⟨h1, h2⟩
  exact ⟨M, a1, ⟨by rw [a3 hpos, l1], by rw [a2, l2], a4, a5,
    fun r i a b ha hb hz => (key r i a b ha hb hz).1, fun r i a b ha hb hz => (key r i a b ha hb hz).2⟩⟩

theorem d1_d1_bars (h : SSOK rnd E ρ) {n deg : ℕ} (hn : n + 2 < E.columns.length)
    (hdeg : deg < E.rows) :
    ∃ M N, firstDifferential E n deg = .ok M ∧ firstDifferential E (n + 1) deg = .ok N ∧
      ∀ (s t : ℕ) (b b' : α × α), (E.firstBars deg (n + 2))[s]? = some b →
        (E.firstBars deg n)[t]? = some b' →
        ∑ m ∈ range (E.firstBars deg (n + 1)).length, M.z E.p t m * N.z E.p m s ≠ 0 →
        b'.2 ≤ b.1 := by
  obtain ⟨D, hD⟩ := h.hasDiff n (by omega)
  obtain ⟨D', hD'⟩ := h.hasDiff (n + 1) (by omega)
  obtain ⟨M, m1, -⟩ := firstDifferential_spec h hD (by omega) hdeg
  obtain ⟨N, n1, -⟩ := firstDifferential_spec h hD' hn hdeg
  refine ⟨M, N, m1, n1, fun s t b b' hb hb' hne => ?_⟩
  obtain ⟨q, hq, hom, a, hh, ha, hb1, rfl⟩ := h.firstBars_class hn hdeg hb
  obtain ⟨k, hk, hom', c, hh', hc, hb2, rfl⟩ := h.firstBars_class (n := n) (by omega) hdeg hb'
  rw [h.firstBars_length' (by omega) hdeg] at hne
  obtain ⟨b3, hb3, -, h3⟩ := d1_d1 h hD hD' hn hdeg m1 n1 hq hh hb1 hk hh' hc hne
  rw [hb2] at hb3
  rw [Option.some.inj hb3]
  exact h3

end

end Permaviss
