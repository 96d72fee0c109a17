import Verif.Lemmas.FirstPage
import Verif.Lemmas.LiftAlive

/-!
# `cech_diff_and_lift` on one piece
-/

namespace Permaviss

open Finset

attribute [-instance] instMulZeroClassOfSemiring

section

variable {α : Type} [LinearOrder α] [Zero α] {rnd : α → α} {E : SSEnv α} {ρ : List ℕ → α}

theorem zv_mulVec {p : ℕ} {P : Mat} (hP : P.WellShaped) (v : List ℤ) :
    zv p (mulVec P v) = ∑ k ∈ range P.ncols, zv p v k • zv p (P.cols.getD k []) := by
  funext i
  rw [Finset.sum_apply]
  rcases Nat.lt_or_ge i P.nrows with hi | hi
  · unfold zv
    rw [mulVec_getD _ _ hi]
    push_cast
    refine Finset.sum_congr rfl fun k _ => ?_
    rw [Pi.smul_apply, smul_eq_mul, mul_comm]
    rfl
  · rw [zv_of_le _ (by rw [mulVec_length]; exact hi), Finset.sum_eq_zero]
    intro k hk
    rw [Pi.smul_apply, zv_of_le (P.cols.getD k []) (by
      rw [hP _ (getD_mem' (by have := mem_range.1 hk; unfold Mat.ncols at this; exact this))]; exact hi),
      smul_zero]

/-- The preimages of the boundaries of a piece. -/
theorem LiftData.preIm (hp : E.p.Prime) {n idx deg : ℕ} {o : LocalOut α}
    {pts : List ℕ} {v : ℕ → ℕ → ZMod E.p} {im hom : Basis α}
    (L : LiftData rnd E ρ n idx deg o pts v im hom) (hdeg : deg < E.rows) :
    ∃ Q, E.preIm0 n idx (deg + 1) = .ok Q ∧ Q.ncols = im.dim ∧ Q.nrows = (E.G n idx (deg + 1)).length ∧
      Q.WellShaped ∧ ∀ k < im.dim, bdry E.p o.diff (deg + 1) (zv E.p (Q.cols.getD k [])) = im.chain E.p k ∧
        ∀ r, (∃ b, im.barcode[k]? = some b ∧ b.1 ≤ r) → ∀ i, zv E.p (Q.cols.getD k []) i ≠ 0 →
          ∃ s, (E.G n idx (deg + 1))[i]? = some s ∧ ρ s ≤ r := by
  have hlt : deg < o.diff.length := by
    rw [L.ok.diff_length hp.two_le]; have := L.ok.levels; omega
  obtain ⟨P, rts, fin, levels, H, S⟩ := run_spec hp rnd L.ok.filt L.ok.run
  obtain ⟨B', Q, keys, h1, h2, -, -⟩ := S.im deg hlt
  rw [L.im_get] at h1; cases h1
  obtain ⟨q1, q2, q3, -, q5⟩ := C25_preimages hp rnd L.ok.filt o.ph L.ok.run deg hlt im Q L.im_get h2
  have hG : E.G n idx (deg + 1) = o.glob pts (deg + 1) := by simp only [SSEnv.G, L.piece, L.pts_eq]
  have hlev : deg + 1 ≤ o.cpx.simplices.length := by have := L.ok.levels; omega
  refine ⟨Q, ?_, by rw [q1, L.im_ok.bars], ?_, q3, fun k hk => ?_⟩
  · unfold SSEnv.preIm0
    rw [L.piece]
    exact atE_some h2
  · rw [q2, L.ok.rad _ hlev, List.length_map, hG]
  · have hkb : k < im.barcode.length := by rw [L.im_ok.bars]; exact hk
    obtain ⟨e1, e2, -⟩ := q5 k _ (List.getElem?_eq_getElem hkb)
    refine ⟨e1, ?_⟩
    rintro r ⟨b, hb, hbr⟩ i hi
    rw [List.getElem?_eq_getElem hkb] at hb
    obtain rfl := Option.some.inj hb
    obtain ⟨q, hq, hqr⟩ := e2 i hi
    rw [L.ok.rad _ hlev, List.getElem?_map] at hq
    obtain ⟨s, hs, rfl⟩ := Option.map_eq_some_iff.1 hq
    exact ⟨s, by rw [hG]; exact hs, hqr.trans hbr⟩

/-- A decomposition closes the zig-zag. -/
theorem LiftData.zigzag {n idx deg : ℕ} {o : LocalOut α}
    {pts : List ℕ} {v : ℕ → ℕ → ZMod E.p} {im hom : Basis α}
    (L : LiftData rnd E ρ n idx deg o pts v im hom) {Q : Mat}
    (hQ : ∀ k < im.dim, bdry E.p o.diff (deg + 1) (zv E.p (Q.cols.getD k [])) = im.chain E.p k ∧
        ∀ r, (∃ b, im.barcode[k]? = some b ∧ b.1 ≤ r) → ∀ i, zv E.p (Q.cols.getD k []) i ≠ 0 →
          ∃ s, (E.G n idx (deg + 1))[i]? = some s ∧ ρ s ≤ r) {z γ β : ℕ → ZMod E.p} {r : α}
    (hd : Decomposes E.p im hom z r γ β) :
    E.ZigZag ρ n deg idx z r (- ∑ k ∈ range im.dim, γ k • zv E.p (Q.cols.getD k [])) β := by
  refine ⟨⟨o, hom, L.piece, L.hom0, ?_, hd.hom_born⟩, ?_⟩
  · rw [map_neg, map_sum, hd.sum]
    rw [Finset.sum_congr rfl fun k hk => by
      rw [map_smul, (hQ k (mem_range.1 hk)).1]]
    abel
  · intro i hi
    rw [Pi.neg_apply, neg_ne_zero, Finset.sum_apply] at hi
    obtain ⟨k, hk, hne⟩ := Finset.exists_ne_zero_of_sum_ne_zero hi
    rw [Pi.smul_apply, smul_eq_mul] at hne
    have hk' := mem_range.1 hk
    exact (hQ k hk').2 r (hd.im_born k hk' fun h0 => hne (by rw [h0, zero_mul])) i
      fun h0 => hne (by rw [h0, mul_zero])

theorem LiftData.classes_eq {n idx deg : ℕ} {o : LocalOut α}
    {pts : List ℕ} {v : ℕ → ℕ → ZMod E.p} {im hom : Basis α}
    (L : LiftData rnd E ρ n idx deg o pts v im hom) : E.classes n deg idx = hom.dim := by
  unfold SSEnv.classes; rw [L.hom0]

/-- A cycle is homologous to a combination of representatives of classes. -/
theorem exists_zigzag (h : SSOK rnd E ρ) {n deg k : ℕ} (hn : n < E.columns.length) (hk : k < E.spx n)
    (hdeg : deg < E.rows) {z : ℕ → ZMod E.p} {r : α} (hr : r < E.maxR)
    (hz : E.IsCycleAt ρ n k deg z r) : ∃ w β, E.ZigZag ρ n deg k z r w β := by
  obtain ⟨o, pts, v, im, hom, L⟩ := h.liftData hn hk hdeg.le
  obtain ⟨γ, β, hd⟩ := (L.decomposes_iff h.prime hdeg.le z hr).2 hz
  obtain ⟨Q, -, -, -, -, hQ⟩ := L.preIm h.prime hdeg
  exact ⟨_, _, L.zigzag hQ hd⟩

/-- The entry of the lift in the result of `cech_diff_and_lift_local`. -/
def liftEnt (out : Option (List (List Int) × LEntry)) : LEntry := (out.map Prod.snd).getD LEntry.empty

/-- The row of expression `g` in the block of the result of `cech_diff_and_lift_local`. -/
def blockRow (w : ℕ) (out : Option (List (List Int) × LEntry)) (g : ℕ) : List Int :=
  match out with
  | some o => o.1.getD g []
  | none => List.replicate w 0

theorem scatterBetas_getD {total w : ℕ} {gens : List ℕ} {cols : List (List ℤ)} {g : ℕ} (hg : g < total) :
    (scatterBetas total w gens cols).getD g [] =
      if g ∈ gens then cols.getD (gens.idxOf g) [] else List.replicate w 0 := by
  unfold scatterBetas
  rw [getD_map_lt (by simpa using hg), List.getElem_range]
  by_cases hm : g ∈ gens
  · rw [if_pos hm]
    have : gens.idxOf? g = some (gens.idxOf g) := by
      rw [List.idxOf_eq_getD_idxOf?]
      cases hc : gens.idxOf? g with
      | none => rw [List.idxOf?_eq_none_iff] at hc; exact absurd hm hc
      | some a => rfl
    rw [this]
  · rw [if_neg hm, List.idxOf?_eq_none_iff.2 hm]

theorem zv_zeros (p w : ℕ) : zv p (List.replicate w 0) = 0 := by
  funext i; unfold zv; rw [replicate_zero_getD]; simp

/-- The lift of one piece: the rows of the references whose coefficients are not all zero. -/
theorem nzEntry_spec {p w m : ℕ} {ref : List ℕ} (hinc : ref.Pairwise (· < ·)) (cols : List (List ℤ))
    (hm : m = ref.length) (F : List ℤ → List ℤ) (hF : ∀ c, (F c).length = w)
    (hF0 : ∀ c, npAny c = false → zv p (F c) = 0) :
    let nz := (List.range m).filter fun a => npAny (cols.getD a [])
    let e : LEntry := ⟨gather ref nz, nz.map fun a => F (cols.getD a [])⟩
    e.WF w ∧ ∀ g, (fun j => ((e.val g j : ℤ) : ZMod p)) =
      if g ∈ ref then zv p (F (cols.getD (ref.idxOf g) [])) else 0 := by
  intro nz e
  have hnzlt : ∀ i ∈ nz, i < ref.length := by
    intro i hi
    have := (List.mem_filter.1 hi).1
    rw [hm] at this
    simpa using this
  have hnzinc : nz.Pairwise (· < ·) := List.Pairwise.sublist List.filter_sublist List.pairwise_lt_range
  have hgm : gather ref nz = nz.map fun i => ref.getD i 0 := gather_eq_map 0 hnzlt
  have hinj : ∀ i < ref.length, ∀ j < ref.length, ref.getD i 0 = ref.getD j 0 → i = j := by
    intro i hi j hj he
    exact getD_inj hinc hi hj he
  have hWF : e.WF w := by
    refine ⟨?_, ?_, ?_⟩
    · change (gather ref nz).Pairwise (· < ·)
      rw [hgm, List.pairwise_map]
      exact hnzinc.imp_of_mem fun {a b} _ hb hab => getD_strictMono hinc hab (hnzlt b hb)
    · change (gather ref nz).length = (nz.map _).length
      rw [hgm, List.length_map, List.length_map]
    · intro r hr
      obtain ⟨a, -, rfl⟩ := List.mem_map.1 hr
      exact hF _
  refine ⟨hWF, fun g => ?_⟩
  have hmem : g ∈ e.ref ↔ ∃ a ∈ nz, ref.getD a 0 = g := by
    change g ∈ gather ref nz ↔ _
    rw [hgm, List.mem_map]
  by_cases hg : g ∈ ref
  · rw [if_pos hg]
    have ha : ref.idxOf g < ref.length := List.idxOf_lt_length_of_mem hg
    have hga : ref.getD (ref.idxOf g) 0 = g := by
      rw [List_getD_eq_getElem _ _ ha]; exact List.getElem_idxOf ha
    by_cases hnz : npAny (cols.getD (ref.idxOf g) []) = true
    · have hin : ref.idxOf g ∈ nz := List.mem_filter.2 ⟨by rw [hm]; simpa using ha, hnz⟩
      have hge : g ∈ e.ref := hmem.2 ⟨_, hin, hga⟩
      have hrow : e.row g = F (cols.getD (ref.idxOf g) []) := by
        rw [LEntry.row_eq hge]
        unfold rowOf
        change (nz.map fun a => F (cols.getD a [])).getD ((gather ref nz).idxOf g) [] = _
        have hidx : (gather ref nz).idxOf g = nz.idxOf (ref.idxOf g) := by
          have hnd : (gather ref nz).Nodup := hWF.increasing.imp fun h => h.ne
          have hlt : nz.idxOf (ref.idxOf g) < nz.length := List.idxOf_lt_length_of_mem hin
          have hlt' : nz.idxOf (ref.idxOf g) < (gather ref nz).length := by
            rw [hgm, List.length_map]; exact hlt
          have hge' : (gather ref nz)[nz.idxOf (ref.idxOf g)] = g := by
            simp only [hgm, List.getElem_map, List.getElem_idxOf hlt, hga]
          have := List.Nodup.idxOf_getElem hnd _ hlt'
          rw [hge'] at this
          exact this
        have hlt : nz.idxOf (ref.idxOf g) < nz.length := List.idxOf_lt_length_of_mem hin
        rw [hidx, getD_map_lt hlt, List.getElem_idxOf hlt]
      funext j
      unfold LEntry.val
      rw [hrow]; rfl
    · rw [hF0 _ (by simpa using hnz)]
      have hge : g ∉ e.ref := by
        intro hc
        obtain ⟨a, han, hag⟩ := hmem.1 hc
        have : a = ref.idxOf g := hinj a (hnzlt a han) _ ha (hag.trans hga.symm)
        rw [this] at han
        exact hnz (List.mem_filter.1 han).2
      funext j
      rw [LEntry.val_neg hge]; simp
  · rw [if_neg hg]
    have hge : g ∉ e.ref := by
      intro hc
      obtain ⟨a, han, hag⟩ := hmem.1 hc
      exact hg (hag ▸ getD_mem' (hnzlt a han))
    funext j
    rw [LEntry.val_neg hge]; simp

/-- What `cech_diff_and_lift_local` returns on piece `k`; `z g` is the Čech differential of expression
`g` there. -/
structure ZigOut (E : SSEnv α) (ρ : List ℕ → α) (n deg k : ℕ) (R : List α) (z : ℕ → ℕ → ZMod E.p)
    (out : Option (List (List Int) × LEntry)) : Prop where
  skip : E.classes n deg k = 0 → out = none
  width : ∀ g < R.length, (blockRow (E.classes n deg k) out g).length = E.classes n deg k
  reduced : ∀ g < R.length, ∀ x ∈ blockRow (E.classes n deg k) out g, 0 ≤ x ∧ x < (E.p : ℤ)
  wf : (liftEnt out).WF (E.G n k (deg + 1)).length
  range : ∀ r ∈ (liftEnt out).coord, ∀ x ∈ r, 0 ≤ x ∧ x < (E.p : ℤ)
  zigzag : 0 < E.classes n deg k → ∀ (g : ℕ) (r : α), R[g]? = some r →
    E.ZigZag ρ n deg k (z g) r (fun j => ((liftEnt out).val g j : ZMod E.p))
      (zv E.p (blockRow (E.classes n deg k) out g))
  alive : ∀ (g : ℕ) (r : α), R[g]? = some r → ∀ hom, E.hom0 n k deg = .ok hom →
    ∀ (a : ℕ) (b : α × α), hom.barcode[a]? = some b → b.2 ≤ r →
      zv E.p (blockRow (E.classes n deg k) out g) a = 0

theorem empty_WF (w : ℕ) : LEntry.empty.WF w :=
  ⟨by simp [LEntry.empty], by simp [LEntry.empty], by simp [LEntry.empty]⟩

theorem gatherE_ok' {β : Type} {l : List β} {idx : List ℕ} (h : ∀ i ∈ idx, i < l.length) :
    gatherE l idx = .ok (gather l idx) := by
  unfold gatherE
  rw [if_pos (by simpa using h)]

theorem cechDiffAndLiftLocal_eq (h : SSOK rnd E ρ) {n deg k : ℕ} (hn : n < E.columns.length)
    (hk : k < E.spx n) (hdeg : deg < E.rows) (R : List α) (C : LChains) :
    cechDiffAndLiftLocal E R C n deg k = if E.classes n deg k = 0 then pure none else (do
      let e ← cechDiffLocal E C n deg k
      if e.ref.length = 0 then pure none
      else do
        let radii ← gatherE R e.ref
        match ← firstPageLocalLift E n deg e.coord radii k with
        | none => .error .valueError
        | some (gammas, betas) => do
          let P ← E.preIm0 n k (deg + 1)
          if P.ncols = gammas.nrows then
            let nz := (List.range gammas.ncols).filter fun a => npAny (gammas.cols.getD a [])
            pure (some (scatterBetas R.length (E.classes n deg k) e.ref betas.cols,
              ⟨gather e.ref nz, nz.map fun a => negMod E.p (mulVec P (gammas.cols.getD a []))⟩))
          else .error .valueError) := by
  obtain ⟨cyc, c1, c2, c3⟩ := h.cyc_at hn hdeg hk
  have hwd : E.classStart n deg (k + 1) - E.classStart n deg k = E.classes n deg k := by
    rw [classStart_succ]; omega
  have hiff : E.classStart n deg k = E.classStart n deg (k + 1) ↔ E.classes n deg k = 0 := by
    rw [classStart_succ]; omega
  unfold cechDiffAndLiftLocal
  by_cases h0 : k = 0
  · rw [if_pos h0] at c2
    simp only [c1, c3, c2, bind, Except.bind, if_pos h0, hwd, hiff]
    split
    · rfl
    cases cechDiffLocal E C n deg k with
    | error _ => rfl
    | ok e =>
      dsimp only
      split
      · rfl
      cases gatherE R e.ref with
      | error _ => rfl
      | ok radii =>
        dsimp only
        cases firstPageLocalLift E n deg e.coord radii k with
        | error _ => rfl
        | ok x => cases x <;> rfl
  · rw [if_neg h0] at c2
    simp only [c1, c3, c2, bind, Except.bind, if_neg h0, hwd, hiff]
    split
    · rfl
    cases cechDiffLocal E C n deg k with
    | error _ => rfl
    | ok e =>
      dsimp only
      split
      · rfl
      cases gatherE R e.ref with
      | error _ => rfl
      | ok radii =>
        dsimp only
        cases firstPageLocalLift E n deg e.coord radii k with
        | error _ => rfl
        | ok x => cases x <;> rfl

theorem entry_zero {w : ℕ} {e : LEntry} (hew : e.WF w) (g : ℕ) {j : ℕ} (hj : w ≤ j) :
    (e.val g j : ZMod E.p) = 0 := by
  by_cases hg : g ∈ e.ref
  · have := LEntry.row_length hew hg
    unfold LEntry.val
    rw [List.getD_eq_getElem?_getD, List.getElem?_eq_none (by omega)]
    simp
  · rw [LEntry.val_neg hg]; simp

theorem cechDiffAndLiftLocal_spec_of (h : SSOK rnd E ρ) {n deg k : ℕ} {D : Mat}
    (hD : E.nerveDiff[n]? = some D) (hn : n + 1 < E.columns.length) (hpos : 0 < E.spx (n + 1))
    (hk : k < E.spx n) (hdeg : deg < E.rows) {C : LChains} (hC : C.WF (E.widths (n + 1) deg))
    {R : List α} (hR : ∀ r ∈ R, r < E.maxR) (href : ∀ e ∈ C, ∀ g ∈ e.ref, g < R.length)
    (hcyc : ∀ e, cechDiffLocal E C n deg k = .ok e → ∀ (g : ℕ) (r : α), R[g]? = some r →
      E.IsCycleAt ρ n k deg (fun j => (e.val g j : ZMod E.p)) r) :
    ∃ e out, cechDiffLocal E C n deg k = .ok e ∧ cechDiffAndLiftLocal E R C n deg k = .ok out ∧
      ZigOut E ρ n deg k R (fun g j => (e.val g j : ZMod E.p)) out := by
  obtain ⟨e, he, hew, hered, herefs, heval⟩ := cechDiffLocal_spec h hD hn hpos hk hdeg.le hC
  obtain ⟨o, pts, v, im, hom, L⟩ := h.liftData (n := n) (idx := k) (deg := deg) (by omega) hk hdeg.le
  have hcl := L.classes_eq
  have hp0 : (0 : ℤ) < E.p := by exact_mod_cast h.prime.pos
  refine ⟨e, ?_⟩
  rw [cechDiffAndLiftLocal_eq h (by omega) hk hdeg]
  simp only [bind, Except.bind]
  by_cases h0 : E.classes n deg k = 0
  · refine ⟨none, he, ?_, fun _ => rfl, ?_, ?_, empty_WF _, ?_, ?_, ?_⟩
    · rw [if_pos h0]; rfl
    · intro g _; simp [blockRow]
    · intro g _ x hx; rw [blockRow, h0] at hx; simp at hx
    · intro r hr; simp [liftEnt, LEntry.empty] at hr
    · omega
    · intro g r _ _ _ a b _ _; simp [blockRow, zv_zeros]
  rw [if_neg h0, he]
  dsimp only
  have hrlt : ∀ g ∈ e.ref, g < R.length := by
    intro g hg
    obtain ⟨l, hl, -, hgl⟩ := (herefs g).1 hg
    exact href _ (getD_mem' (by rw [hC.length, widths_length]; exact hl)) g hgl
  have hz0 : ∀ g j, (E.G n k deg).length ≤ j → (e.val g j : ZMod E.p) = 0 := by
    intro g j hj
    by_cases hg : g ∈ e.ref
    · have := LEntry.row_length hew hg
      unfold LEntry.val
      rw [List.getD_eq_getElem?_getD, List.getElem?_eq_none (by omega)]
      simp
    · rw [LEntry.val_neg hg]; simp
  have hcycle := hcyc e he
  by_cases href0 : e.ref.length = 0
  · have hnil : e.ref = [] := List.length_eq_zero_iff.1 href0
    refine ⟨none, rfl, by rw [if_pos href0]; rfl, fun _ => rfl, ?_, ?_, empty_WF _, ?_, ?_, ?_⟩
    · intro g _; simp [blockRow]
    · intro g _ x hx
      rw [blockRow] at hx
      rw [List.eq_of_mem_replicate hx]
      exact ⟨le_rfl, hp0⟩
    · intro r hr; simp [liftEnt, LEntry.empty] at hr
    · intro _ g r hr
      have hz : (fun j => (e.val g j : ZMod E.p)) = 0 := by
        funext j; rw [LEntry.val_neg (by rw [hnil]; simp)]; simp
      have hw : (fun j => ((liftEnt none).val g j : ZMod E.p)) = 0 := by
        funext j; rw [LEntry.val_neg (by simp [liftEnt, LEntry.empty])]; simp
      rw [hz, hw]
      refine ⟨⟨o, hom, L.piece, L.hom0, ?_, ?_⟩, ?_⟩
      · rw [map_zero, add_zero, Finset.sum_eq_zero]
        intro a _
        simp [blockRow, zv_zeros]
      · intro a _ hne
        exact absurd (by simp [blockRow, zv_zeros]) hne
      · intro i hi; exact absurd rfl hi
    · intro g r _ _ _ a b _ _; simp [blockRow, zv_zeros]
  rw [if_neg href0, gatherE_ok' hrlt]
  dsimp only
  have hrad : ∀ a : ℕ, (gather R e.ref)[a]? = (e.ref[a]?).bind fun g => R[g]? :=
    fun a => gather_getElem? hrlt a
  have hl : (gather R e.ref).length = e.coord.length := by
    rw [length_gather hrlt, hew.rows]
  have hne : gather R e.ref ≠ [] := by
    intro hc
    have := length_gather hrlt
    rw [hc] at this; simp at this; omega
  have hrow : ∀ a row, e.coord[a]? = some row → ∃ g, e.ref[a]? = some g ∧ e.ref.idxOf g = a ∧
      (fun j => (e.val g j : ZMod E.p)) = zv E.p row := by
    intro a row ha
    obtain ⟨ha', hrow⟩ := List.getElem?_eq_some_iff.1 ha
    have har : a < e.ref.length := by rw [hew.rows]; exact ha'
    have hidx : e.ref.idxOf e.ref[a] = a :=
      List.Nodup.idxOf_getElem (hew.increasing.imp fun h => h.ne) _ har
    refine ⟨e.ref[a], List.getElem?_eq_getElem har, hidx, ?_⟩
    funext j
    unfold LEntry.val zv
    rw [LEntry.row_eq (List.getElem_mem har)]
    unfold rowOf
    rw [hidx, List_getD_eq_getElem _ _ ha', hrow]
  rcases L.lift h.prime hl hne (fun hc => h0 (by rw [hcl]; exact hc.2)) hew.width with
    ⟨-, a, row, r, ha, hra, hnot⟩ | ⟨γ, β, hlift, ⟨g1, g2, g3, g4⟩, ⟨b1, b2, b3, b4⟩, hdec⟩
  · exfalso
    obtain ⟨g, hg, -, hval⟩ := hrow a row ha
    rw [hrad, hg] at hra
    apply hnot
    rw [← hval]
    exact (L.decomposes_iff h.prime hdeg.le _ (hR r (List.mem_of_getElem? hra))).2 (hcycle g r hra)
  rw [hlift]
  dsimp only
  obtain ⟨Q, hQ, hQc, hQr, hQw, hQb⟩ := L.preIm h.prime hdeg
  rw [hQ]
  dsimp only
  rw [if_pos (by rw [hQc, g1])]
  obtain ⟨nz1, nz2⟩ := nzEntry_spec (p := E.p) (w := (E.G n k (deg + 1)).length) hew.increasing γ.cols
    (m := γ.ncols) (by rw [g2, hew.rows]) (fun c => negMod E.p (mulVec Q c))
    (by intro c; simp [negMod, mulVec_length, hQr])
    (by
      intro c hc
      rw [zv_negMod, zv_mulVec hQw, Finset.sum_eq_zero, neg_zero]
      intro i _
      have : zv E.p c i = 0 := by unfold zv; rw [npAny_eq_false.1 hc i]; simp
      rw [this, zero_smul])
  refine ⟨_, rfl, rfl, fun hc => absurd hc h0, ?_, ?_, nz1, ?_, ?_, ?_⟩
  · intro g hg
    rw [blockRow, scatterBetas_getD hg]
    split
    · next hm =>
      rw [b3 _ (getD_mem' (by
        have := List.idxOf_lt_length_of_mem hm
        unfold Mat.ncols at b2
        rw [b2, ← hew.rows]; exact this)), b1, hcl]
    · simp
  · intro g hg x hx
    rw [blockRow, scatterBetas_getD hg] at hx
    split at hx
    · next hm =>
      exact b4 _ (getD_mem' (by
        have := List.idxOf_lt_length_of_mem hm
        unfold Mat.ncols at b2
        rw [b2, ← hew.rows]; exact this)) x hx
    · rw [List.eq_of_mem_replicate hx]
      exact ⟨le_rfl, hp0⟩
  · intro r hr x hx
    obtain ⟨a, -, rfl⟩ := List.mem_map.1 hr
    obtain ⟨y, -, rfl⟩ := List.mem_map.1 hx
    exact ⟨Int.emod_nonneg _ hp0.ne', Int.emod_lt_of_pos _ hp0⟩
  · intro _ g r hr
    have hgR : g < R.length := (List.getElem?_eq_some_iff.1 hr).1
    rw [blockRow, scatterBetas_getD hgR]
    change E.ZigZag ρ n deg k _ r (fun j => ((LEntry.val ⟨_, _⟩ g j : ℤ) : ZMod E.p)) _
    rw [nz2 g]
    by_cases hg : g ∈ e.ref
    · rw [if_pos hg, if_pos hg]
      set a := e.ref.idxOf g with ha
      have hal : a < e.ref.length := List.idxOf_lt_length_of_mem hg
      have hac : a < e.coord.length := by rw [← hew.rows]; exact hal
      have hga : e.ref[a]? = some g := by
        rw [List.getElem?_eq_getElem hal]
        exact congrArg some (List.getElem_idxOf hal)
      obtain ⟨g', hg', -, hval⟩ := hrow a _ (List.getElem?_eq_getElem hac)
      rw [hga] at hg'
      obtain rfl := Option.some.inj hg'
      have hd := hdec a _ r (List.getElem?_eq_getElem hac) (by rw [hrad, hga]; exact hr)
      rw [← hval] at hd
      have hzz := L.zigzag hQb hd
      rw [zv_negMod, zv_mulVec hQw, hQc]
      exact hzz
    · rw [if_neg hg, if_neg hg]
      have hz : (fun j => (e.val g j : ZMod E.p)) = 0 := by
        funext j; rw [LEntry.val_neg hg]; simp
      rw [hz]
      refine ⟨⟨o, hom, L.piece, L.hom0, ?_, ?_⟩, ?_⟩
      · rw [map_zero, add_zero, Finset.sum_eq_zero]
        intro a _
        simp [zv_zeros]
      · intro a _ hne
        exact absurd (by simp [zv_zeros]) hne
      · intro i hi; exact absurd rfl hi
  · intro g r hr hom' hh' a b hb hbr
    rw [L.hom0] at hh'; obtain rfl := Except.ok.inj hh'
    have hgR : g < R.length := (List.getElem?_eq_some_iff.1 hr).1
    rw [blockRow, scatterBetas_getD hgR]
    split
    · next hg =>
      have hal : e.ref.idxOf g < e.ref.length := List.idxOf_lt_length_of_mem hg
      have hga : e.ref[e.ref.idxOf g]? = some g := by
        rw [List.getElem?_eq_getElem hal]
        exact congrArg some (List.getElem_idxOf hal)
      exact L.alive h.prime hdeg hl hew.width hlift (a := e.ref.idxOf g) (r := r)
        (by rw [hrad, hga]; exact hr) (hR r (List.mem_of_getElem? hr)) hb hbr
    · rw [zv_zeros]; rfl

theorem cechDiffAndLiftLocal_spec (h : SSOK rnd E ρ) {n deg k : ℕ} {D : Mat}
    (hD : E.nerveDiff[n]? = some D) (hn : n + 1 < E.columns.length) (hpos : 0 < E.spx (n + 1))
    (hk : k < E.spx n) (hdeg : deg < E.rows) {C : LChains} (hC : C.WF (E.widths (n + 1) deg))
    {R : List α} (hR : ∀ r ∈ R, r < E.maxR) (href : ∀ e ∈ C, ∀ g ∈ e.ref, g < R.length)
    (hcyc : ∀ (g : ℕ) (r : α), R[g]? = some r → ∀ l < E.spx (n + 1),
      E.IsCycleAt ρ (n + 1) l deg (fun j => (C.val l g j : ZMod E.p)) r) :
    ∃ e out, cechDiffLocal E C n deg k = .ok e ∧ cechDiffAndLiftLocal E R C n deg k = .ok out ∧
      ZigOut E ρ n deg k R (fun g j => (e.val g j : ZMod E.p)) out := by
  refine cechDiffAndLiftLocal_spec_of h hD hn hpos hk hdeg hC hR href fun e' he' => ?_
  obtain ⟨e, he, hew, hered, herefs, heval⟩ := cechDiffLocal_spec h hD hn hpos hk hdeg.le hC
  rw [he] at he'
  obtain rfl := Except.ok.inj he'
  intro g r hr
  exact cech_isCycleAt h hD hn hk hdeg.le (hcyc g r hr) (fun j hj => heval g j hj) (fun j hj => entry_zero hew g hj)

end

end Permaviss
