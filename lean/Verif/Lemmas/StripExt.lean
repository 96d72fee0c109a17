import Verif.Lemmas.StripChains
import Verif.Lemmas.Strip

/-!
# `extension`
-/

namespace Permaviss

open Finset

attribute [-instance] instMulZeroClassOfSemiring

section

variable {α : Type} [LinearOrder α] [Zero α] {rnd : α → α} {E : SSEnv α} {ρ : List ℕ → α}

theorem anyRows_false {M : List (List ℤ)} : anyRows M = false ↔ ∀ c ∈ M, ∀ i, c.getD i 0 = 0 := by
  unfold anyRows
  rw [List.any_eq_false]
  constructor
  · intro h c hc
    exact npAny_eq_false.1 (by simpa using h c hc)
  · intro h c hc
    simpa using npAny_eq_false.2 (h c hc)

theorem anyRows_zv {p : ℕ} {M : List (List ℤ)} (h : anyRows M = false) (j : ℕ) : zv p (M.getD j []) = 0 := by
  funext i
  unfold zv
  rcases Nat.lt_or_ge j M.length with hj | hj
  · rw [List_getD_eq_getElem M _ hj, anyRows_false.1 h _ (List.getElem_mem hj)]; simp
  · rw [List.getD_eq_getElem?_getD (l := M), List.getElem?_eq_none hj]; simp

/-- `g` is a combination of the generators of `I` which are alive at `d`. -/
def Comb (p : ℕ) (I : Basis α) (d : α) (g : ℕ → ZMod p) : Prop :=
  ∃ γ : ℕ → ZMod p, (∀ i, ¬ AliveBar I.barcode i d → γ i = 0) ∧
    g = ∑ i ∈ range I.dim, γ i • I.coords.zcol p i

theorem Comb.zero {p : ℕ} {I : Basis α} {d : α} : Comb p I d 0 :=
  ⟨0, fun _ _ => rfl, by simp⟩

theorem Comb.add {p : ℕ} {I : Basis α} {d : α} {g g' : ℕ → ZMod p} (h : Comb p I d g) (h' : Comb p I d g') :
    Comb p I d (g + g') := by
  obtain ⟨γ, h1, rfl⟩ := h
  obtain ⟨γ', h1', rfl⟩ := h'
  refine ⟨γ + γ', fun i hi => by rw [Pi.add_apply, h1 i hi, h1' i hi, add_zero], ?_⟩
  rw [← Finset.sum_add_distrib]
  exact Finset.sum_congr rfl fun i _ => by rw [Pi.add_apply, add_smul]

/-- One round of the loop of `extension` over the pages. -/
theorem extRound_spec (h : SSOK rnd E ρ) {S : SSt α} {n deg t : ℕ} (hn : n < E.columns.length)
    (hpos : 0 < E.spx n) (hdeg : deg < E.rows) {prev : List (α × α)} {H I : Basis α}
    (P : LiftPos E S n deg prev H I) (ht : 2 ≤ t) (htp : t ≤ E.noPages)
    {deaths : List α} {C X : LChains} {f : ℕ → ℕ → ℕ → ZMod E.p}
    (hC : ChainIs E n deg deaths.length f C) (hr : extRound rnd E S n deg deaths C t = .ok X) :
    (I.dim = 0 → X = C) ∧ ∃ g : ℕ → ℕ → ZMod E.p,
      (∀ j d, deaths[j]? = some d → Comb E.p I d (g j)) ∧
      ChainIs E n deg deaths.length (fun k j => f k j - E.fam n deg k (g j)) X := by
  have triv : ∃ g : ℕ → ℕ → ZMod E.p, (∀ j d, deaths[j]? = some d → Comb E.p I d (g j)) ∧
      ChainIs E n deg deaths.length (fun k j => f k j - E.fam n deg k (g j)) C :=
    ⟨fun _ => 0, fun _ _ _ => Comb.zero, hC.congr fun k _ g _ => by rw [map_zero, sub_zero]⟩
  unfold extRound at hr
  rw [bind_ok] at hr
  obtain ⟨out, hout, hr⟩ := hr
  obtain ⟨o1, o2, -⟩ := firstPageLift_spec h hn hpos hdeg hC.wf hC.refs hout
  rw [bind_ok] at hr
  obtain ⟨lo, hlo, hr⟩ := hr
  rcases liftToPage_spec h.prime P ht htp (fun c hc => fun x hx => (o2 c hc).2 x hx) hlo with
    ⟨-, rfl⟩ | ⟨-, β, γ, γ', rfl, hβ, hγ', h2, hn2, hrel⟩
  · cases hr
    exact ⟨fun _ => rfl, triv⟩
  dsimp only at hr
  split at hr
  · cases hr
  split at hr
  · cases hr
    exact ⟨fun _ => rfl, triv⟩
  next hany =>
  by_cases ht2 : t = 2
  swap
  · exfalso
    refine hany (anyRows_false.2 fun c hc i => ?_)
    rw [hn2 ht2 c hc]; rfl
  obtain rfl := h2 ht2
  subst ht2
  rw [show (2 : ℕ) - 1 = 1 from rfl, P.im] at hr
  dsimp only at hr
  rw [if_pos rfl] at hr
  have hI0 : I.dim ≠ 0 := by
    intro h0
    refine hany (anyRows_false.2 fun c hc i => ?_)
    have := hγ'.len c hc
    rw [h0] at this
    rw [List.length_eq_zero_iff.1 this]; rfl
  have hIm := P.liftI.mat (by omega)
  refine ⟨fun h0 => absurd h0 hI0, ?_⟩
  rw [bind_ok] at hr
  obtain ⟨cyc, hcyc, hr⟩ := hr
  rw [bind_ok] at hr
  obtain ⟨J, hJ, hr⟩ := hr
  have hγl : γ.cols.length = deaths.length := by rw [hγ'.ncols, o1]
  have hcls : ChainIs E n deg deaths.length (fun k g => E.fam n deg k (zv E.p
      ((γ.cols.map fun g => mulVec I.coords (scale (-1) g)).getD g []))) J := by
    have := classFold_spec h hn hpos hdeg (nr := I.coords.nrows) (m := γ.ncols)
      (cols := γ.cols.map fun g => mulVec I.coords (scale (-1) g)) (by
        intro c hc
        obtain ⟨x, -, rfl⟩ := List.mem_map.1 hc
        exact mulVec_length _ _) (by rw [List.length_map]; rfl) hcyc hJ
    rw [show γ.ncols = deaths.length from hγl] at this
    exact this
  have hval : ∀ j < deaths.length, zv E.p ((γ.cols.map fun g => mulVec I.coords (scale (-1) g)).getD j []) =
      - ∑ i ∈ range I.dim, γ.zcol E.p j i • I.coords.zcol E.p i := by
    intro j hj
    have hj' : j < γ.cols.length := by omega
    rw [getD_map_lt hj', zv_mulVec (fun c hc => by rw [hIm.len c hc, hIm.rows]), ← Finset.sum_neg_distrib,
      show I.coords.ncols = I.dim from hIm.ncols]
    refine Finset.sum_congr rfl fun i _ => ?_
    rw [zv_scale]
    unfold Mat.zcol
    rw [List_getD_eq_getElem γ.cols _ hj']
    simp
  refine ⟨fun j => ∑ i ∈ range I.dim, γ.zcol E.p j i • I.coords.zcol E.p i, ?_, ?_⟩
  · intro j d hd
    have hj : j < deaths.length := (List.getElem?_eq_some_iff.1 hd).1
    obtain ⟨b, hb, -, -, hs, -⟩ := hrel j (by omega)
    rw [List.getElem?_map, hd] at hb
    have hb' : (d, E.maxR) = b := Option.some.inj hb
    rw [← hb'] at hs
    exact ⟨γ.zcol E.p j, hs, rfl⟩
  · refine (hC.add hcls hr).congr fun k _ j hj => ?_
    rw [hval j hj, map_neg, sub_eq_add_neg]

/-- The loop of `extension` over the pages. -/
theorem extRounds_spec (h : SSOK rnd E ρ) {S : SSt α} {n deg : ℕ} (hn : n < E.columns.length)
    (hpos : 0 < E.spx n) (hdeg : deg < E.rows) {prev : List (α × α)} {H I : Basis α}
    (P : LiftPos E S n deg prev H I)
    {deaths : List α} {C X : LChains} {f : ℕ → ℕ → ℕ → ZMod E.p}
    (hC : ChainIs E n deg deaths.length f C)
    (hr : ((List.range (E.noPages - 1)).map fun i => E.noPages - i).foldlM
      (extRound rnd E S n deg deaths) C = .ok X) :
    (I.dim = 0 → X = C) ∧ ∃ g : ℕ → ℕ → ZMod E.p,
      (∀ j d, deaths[j]? = some d → Comb E.p I d (g j)) ∧
      ChainIs E n deg deaths.length (fun k j => f k j - E.fam n deg k (g j)) X := by
  refine foldlM_ok_inv (fun X => (I.dim = 0 → X = C) ∧ ∃ g : ℕ → ℕ → ZMod E.p,
      (∀ j d, deaths[j]? = some d → Comb E.p I d (g j)) ∧
      ChainIs E n deg deaths.length (fun k j => f k j - E.fam n deg k (g j)) X) ?_ hr
    ⟨fun _ => rfl, fun _ => 0, fun _ _ _ => Comb.zero, hC.congr fun k _ g _ => by rw [map_zero, sub_zero]⟩
  rintro Y t Y' htm hY ⟨i1, g, hg, i2⟩
  obtain ⟨i, hi, rfl⟩ := List.mem_map.1 htm
  have hi' := List.mem_range.1 hi
  obtain ⟨e1, g', hg', e2⟩ := extRound_spec h hn hpos hdeg P (by omega) (by omega) i2 hY
  refine ⟨fun h0 => (e1 h0).trans (i1 h0), fun j => g j + g' j, fun j d hd => (hg j d hd).add (hg' j d hd),
    e2.congr fun k _ j _ => ?_⟩
  rw [map_add, sub_sub]

/-- One round of the loop of `extension` over the diagonal. -/
theorem extLoop_succ {S : SSt α} {deaths : List α} {m idx n deg : ℕ} {reps : List LChains} {out : List Mat}
    (h : extLoop rnd E S deaths (m + 1) idx n deg reps = .ok out) :
    ∃ C0 o bg reps1 C1 C o' reps2 rest, atE reps idx = .ok C0 ∧ firstPageLift E n deg C0 deaths = .ok o ∧
      liftToPage rnd E S n deg E.noPages o.1 (deaths.map fun d => (d, E.maxR)) = .ok bg ∧
      ((anyRows ((bg.map Prod.fst).getD ⟨0, []⟩ : Mat).cols = false ∧ reps1 = reps) ∨
        (anyRows ((bg.map Prod.fst).getD ⟨0, []⟩ : Mat).cols = true ∧
          extSubtract E S n deg idx ((bg.map Prod.fst).getD ⟨0, []⟩) reps = .ok reps1)) ∧
      atE reps1 idx = .ok C1 ∧ ((List.range (E.noPages - 1)).map fun i => E.noPages - i).foldlM
        (extRound rnd E S n deg deaths) C1 = .ok C ∧ firstPageLift E n deg C deaths = .ok o' ∧
      anyRows o'.1 = false ∧
      ((n = 0 ∧ reps2 = reps1) ∨ (0 < n ∧ ∃ I Cn Cn', cechDiff E (n - 1) (deg + 1) (o'.2.minus E.p) = .ok I ∧
        atE reps1 (idx + 1) = .ok Cn ∧ Cn.add I = .ok Cn' ∧ reps2 = reps1.set (idx + 1) Cn')) ∧
      extLoop rnd E S deaths m (idx + 1) (n - 1) (deg + 1) reps2 = .ok rest ∧
      out = (bg.map Prod.fst).getD ⟨0, []⟩ :: rest := by
  rw [extLoop, bind_ok] at h
  obtain ⟨C0, h1, h⟩ := h
  rw [bind_ok] at h
  obtain ⟨o, h2, h⟩ := h
  rw [bind_ok] at h
  obtain ⟨bg, h3, h⟩ := h
  dsimp only at h
  have tail : ∀ reps1, (do
      let C1 ← atE reps1 idx
      let C ← ((List.range (E.noPages - 1)).map fun i => E.noPages - i).foldlM
        (extRound rnd E S n deg deaths) C1
      let out ← firstPageLift E n deg C deaths
      if anyRows out.1 then .error .runtimeError
      else do
        let reps ← if 0 < n then do
            let I ← cechDiff E (n - 1) (deg + 1) (out.2.minus E.p)
            let Cn ← atE reps1 (idx + 1)
            let Cn' ← Cn.add I
            pure (reps1.set (idx + 1) Cn')
          else pure reps1
        let rest ← extLoop rnd E S deaths m (idx + 1) (n - 1) (deg + 1) reps
        pure ((bg.map Prod.fst).getD ⟨0, []⟩ :: rest) : Except PyErr (List Mat)) = .ok out →
      ∃ C1 C o' reps2 rest, atE reps1 idx = .ok C1 ∧
        ((List.range (E.noPages - 1)).map fun i => E.noPages - i).foldlM
          (extRound rnd E S n deg deaths) C1 = .ok C ∧ firstPageLift E n deg C deaths = .ok o' ∧
        anyRows o'.1 = false ∧
        ((n = 0 ∧ reps2 = reps1) ∨ (0 < n ∧ ∃ I Cn Cn', cechDiff E (n - 1) (deg + 1) (o'.2.minus E.p) = .ok I ∧
          atE reps1 (idx + 1) = .ok Cn ∧ Cn.add I = .ok Cn' ∧ reps2 = reps1.set (idx + 1) Cn')) ∧
        extLoop rnd E S deaths m (idx + 1) (n - 1) (deg + 1) reps2 = .ok rest ∧
        out = (bg.map Prod.fst).getD ⟨0, []⟩ :: rest := by
    intro reps1 h
    rw [bind_ok] at h
    obtain ⟨C1, h5, h⟩ := h
    rw [bind_ok] at h
    obtain ⟨C, h6, h⟩ := h
    rw [bind_ok] at h
    obtain ⟨o', h7, h⟩ := h
    split at h
    · cases h
    next h8 =>
    dsimp only at h
    split at h
    · next hn =>
      rw [bind_ok] at h
      obtain ⟨I, h9, h⟩ := h
      rw [bind_ok] at h
      obtain ⟨Cn, h10, h⟩ := h
      rw [bind_ok] at h
      obtain ⟨Cn', h11, h⟩ := h
      rw [bind_ok] at h
      obtain ⟨r2, hr2, h⟩ := h
      cases hr2
      rw [bind_ok] at h
      obtain ⟨rest, h12, h⟩ := h
      cases h
      exact ⟨C1, C, o', _, rest, h5, h6, h7, by simpa using h8, Or.inr ⟨hn, I, Cn, Cn', h9, h10, h11, rfl⟩, h12, rfl⟩
    · next hn =>
      rw [bind_ok] at h
      obtain ⟨r2, hr2, h⟩ := h
      cases hr2
      rw [bind_ok] at h
      obtain ⟨rest, h12, h⟩ := h
      cases h
      exact ⟨C1, C, o', _, rest, h5, h6, h7, by simpa using h8, Or.inl ⟨by omega, rfl⟩, h12, rfl⟩
  split at h
  · next h0 =>
    rw [bind_ok] at h
    obtain ⟨reps1, h4, h⟩ := h
    obtain ⟨C1, C, o', reps2, rest, r⟩ := tail reps1 h
    exact ⟨C0, o, bg, reps1, C1, C, o', reps2, rest, h1, h2, h3, Or.inr ⟨h0, h4⟩, r⟩
  · next h4 =>
    obtain ⟨C1, C, o', reps2, rest, r⟩ := tail reps h
    exact ⟨C0, o, bg, reps, C1, C, o', reps2, rest, h1, h2, h3, Or.inl ⟨by simpa using h4, rfl⟩, r⟩

theorem LiftPos.last {S : SSt α} {n deg : ℕ} {prev : List (α × α)} {H I : Basis α}
    (P : LiftPos E S n deg prev H I) (h2 : 2 ≤ E.noPages) :
    (S.hom (E.noPages - 1) n deg).basis.barcode = H.barcode ∧ (S.hom (E.noPages - 1) n deg).basis.dim = H.dim := by
  by_cases h : E.noPages = 2
  · rw [h, show 2 - 1 = 1 from rfl, P.hom]; exact ⟨rfl, rfl⟩
  · have := P.kept (E.noPages - 1) (by omega) (by omega)
    exact ⟨this.bars, this.dim⟩

theorem no_alive_end {bars : List (α × α)} {R d : α} (hR : ∀ b ∈ bars, b.2 ≤ R) (hd : ¬ d < R) (i : ℕ) :
    ¬ AliveBar bars i d := by
  rintro ⟨b, hb, -, h2⟩
  exact hd (h2.trans_le (hR b (List.mem_of_getElem? hb)))

theorem extSubtract_one {S : SSt α} {n deg idx : ℕ} {B : Mat} {reps reps' : List LChains} {X : LChains}
    (hX : S.reps (E.noPages - 1) n deg = [X]) (h : extSubtract E S n deg idx B reps = .ok reps') :
    ∃ b C C', LChains.sums X (B.cols.map (scale (-1))) B.nrows = .ok b ∧ atE reps idx = .ok C ∧
      subtractBeta E.p C b = .ok C' ∧ reps' = reps.set idx C' := by
  unfold extSubtract at h
  rw [hX] at h
  simp only [List.length_singleton, List.range_one, List.zip_cons_cons, List.zip_nil_left, List.foldlM_cons,
    List.foldlM_nil, zero_add] at h
  rw [bind_ok] at h
  obtain ⟨r, h, h'⟩ := h
  cases h'
  rw [bind_ok] at h
  obtain ⟨b, h1, h⟩ := h
  rw [bind_ok] at h
  obtain ⟨C, h2, h⟩ := h
  rw [bind_ok] at h
  obtain ⟨C', h3, h⟩ := h
  cases h
  exact ⟨b, C, C', h1, h2, h3, rfl⟩

theorem Comb.born {n deg : ℕ} {I : Basis α} {d : α} {g : ℕ → ZMod E.p} (hg : Comb E.p I d g)
    (hb : ∀ i b, I.barcode[i]? = some b → E.BornBy n deg (I.coords.zcol E.p i) b.1) :
    E.BornBy n deg g d := by
  obtain ⟨γ, h1, rfl⟩ := hg
  refine BornBy.sum _ _ fun i _ => ?_
  by_cases h0 : γ i = 0
  · rw [h0, zero_smul]; exact BornBy.zero
  have : AliveBar I.barcode i d := by by_contra hn; exact h0 (h1 i hn)
  obtain ⟨b, hb', hb1, -⟩ := this
  exact BornBy.smul _ (BornBy.mono hb1 (hb i b hb'))

/-- The first round of the loop over the diagonal changes nothing in the second column. -/
theorem extension_betas (h : SSOK rnd E ρ) {e : ℕ} (hn : 1 < E.columns.length) (hpos : 0 < E.spx 1)
    (he : e < E.rows) {S : SSt α} {K I : Basis α}
    (h2 : 2 ≤ E.noPages) (P : LiftPos E S 1 e (E.firstBars e 1) K I) (hI : I.dim = 0) (hK0 : K.dim ≠ 0)
    (hKR : ∀ b ∈ K.barcode, b.2 ≤ E.maxR) {Z : α → Submodule (ZMod E.p) (ℕ → ZMod E.p)}
    (hG : Gens E 1 e K.barcode (K.coords.zcol E.p) Z (fun _ => ⊥)) {deaths : List α}
    (hde : deaths = K.barcode.map Prod.snd) {C0 : LChains} {f : ℕ → ℕ → ℕ → ZMod E.p}
    (hC : ChainIs E 1 e deaths.length f C0)
    (hf : ∀ (j : ℕ) (d : α), deaths[j]? = some d → d < E.maxR → ∀ k < E.spx 1, f k j = E.fam 1 e k (K.coords.zcol E.p j))
    {o : List (List ℤ) × LChains} (ho : firstPageLift E 1 e C0 deaths = .ok o) {bg : Option (Mat × Mat)}
    (hbg : liftToPage rnd E S 1 e E.noPages o.1 (deaths.map fun d => (d, E.maxR)) = .ok bg) :
    ∃ β, (bg.map Prod.fst).getD ⟨0, []⟩ = β ∧ MatOK E.p K.dim K.dim β ∧ anyRows β.cols = false := by
  obtain ⟨o1, o2, -, -, o5⟩ := firstPageLift_spec h hn hpos he hC.wf hC.refs ho
  have hdl : deaths.length = K.dim := by rw [hde, List.length_map, P.liftH.dim]
  rcases liftToPage_spec h.prime P h2 le_rfl (fun c hc => fun x hx => (o2 c hc).2 x hx) hbg with
    ⟨h0, -⟩ | ⟨-, β, γ, γ', rfl, hβ, hγ', -, -, hrel⟩
  · exact absurd h0 hK0
  rw [o1, hdl] at hβ
  refine ⟨β, rfl, hβ, anyRows_false.2 ?_⟩
  intro c hc i
  obtain ⟨j, hj, rfl⟩ := List.getElem_of_mem hc
  have hjd : j < deaths.length := by rw [hdl, ← hβ.ncols]; exact hj
  have hz : β.zcol E.p j = 0 := by
    obtain ⟨b', hb', -, hs, -, hr⟩ := hrel j (by omega)
    rw [List.getElem?_map, List.getElem?_eq_getElem hjd] at hb'
    obtain rfl : (deaths[j], E.maxR) = b' := Option.some.inj hb'
    dsimp only at hs hr
    by_cases hd : deaths[j] < E.maxR
    swap
    · funext i
      exact hs i (no_alive_end hKR hd i)
    have hjK : j < K.barcode.length := by rw [← P.liftH.dim]; omega
    have hKj : K.barcode[j]? = some K.barcode[j] := List.getElem?_eq_getElem hjK
    have hdj : deaths[j] = K.barcode[j].2 := by
      simp only [hde, List.getElem_map]
    have hlt := P.wfH _ (List.getElem_mem hjK)
    have hb := BornBy.mono (show K.barcode[j].1 ≤ deaths[j] by rw [hdj]; exact hlt.le) (hG.born j _ hKj)
    have hval : ∀ l < E.spx 1, (fun i => (C0.val l j i : ZMod E.p)) = E.fam 1 e l (K.coords.zcol E.p j) := by
      intro l hl
      rw [hC.val l hl j hjd, hf j _ (List.getElem?_eq_getElem hjd) hd l hl]
    obtain ⟨q1, q2⟩ := o5 j _ (List.getElem?_eq_getElem hjd) hd (by
      intro l hl
      rw [hval l hl]
      exact fam_cycle h hn he hb hl)
    have hdead := fam_dead h hn he hd (BornBy.sub hb q1) (w := fun k i => (o.2.val k j i : ZMod E.p)) (by
      intro k hk
      obtain ⟨q3, q4⟩ := q2 k hk
      refine ⟨q3, ?_⟩
      rw [hval k hk] at q4
      rw [map_sub, q4, add_sub_cancel_right])
    rw [map_sub, sub_eq_zero] at hdead
    have hy0 := hG.dead j _ deaths[j] hKj (by rw [hdj])
    rw [Submodule.mem_bot, hdead] at hy0
    rw [hI, Finset.sum_range_zero, zero_add] at hr
    have := hr.symm.trans hy0
    funext i
    refine hG.indep deaths[j] (β.zcol E.p j) hs ?_ i
    rw [Submodule.mem_bot, ← P.liftH.dim]
    exact this
  have hz' := congrFun hz i
  unfold Mat.zcol at hz'
  rw [List_getD_eq_getElem _ _ hj] at hz'
  exact (RedL.zv_eq_zero (hβ.red _ (List.getElem_mem hj)) h.prime.pos i).1 hz'

/-- What `extension` returns for a position of the second column. -/
structure ExtOut (E : SSEnv α) (ρ : List ℕ → α) (D : Mat) (e : ℕ) (K Q I : Basis α)
    (v : ℕ → ℕ → ℕ → ZMod E.p) (B : Mat) : Prop where
  shape : (Q.dim = 0 ∧ B.nrows = 0) ∨ (Q.dim ≠ 0 ∧ MatOK E.p Q.dim K.dim B)
  life : ∀ j b, K.barcode[j]? = some b → ∀ i, ¬ AliveBar Q.barcode i b.2 → B.zcol E.p j i = 0
  dies : ∀ j b, K.barcode[j]? = some b → b.2 < E.maxR → ∃ (u : ℕ → ℕ → ZMod E.p) (g : ℕ → ZMod E.p)
    (w : ℕ → ℕ → ZMod E.p), Comb E.p I b.2 g ∧ ∀ k < E.spx 0, E.PresentAt ρ 0 k (e + 2) (w k) b.2 ∧
      v j k + E.cechSum D 0 (e + 1) k u -
        E.fam 0 (e + 1) k (∑ i ∈ range Q.barcode.length, B.zcol E.p j i • Q.coords.zcol E.p i) -
        E.fam 0 (e + 1) k g = E.bd 0 k (e + 2) (w k)

theorem extension_spec (h : SSOK rnd E ρ) {e : ℕ} {D : Mat} (hD : E.nerveDiff[0]? = some D)
    (hn : 1 < E.columns.length) (hpos : 0 < E.spx 1) (hpos0 : 0 < E.spx 0)
    (he : e + 1 < E.rows) {S : SSt α} {K I1 Q I0 : Basis α}
    (h2 : 2 ≤ E.noPages) (P1 : LiftPos E S 1 e (E.firstBars e 1) K I1) (hI1 : I1.dim = 0) (hK0 : K.dim ≠ 0)
    (P0 : LiftPos E S 0 (e + 1) (E.firstBars (e + 1) 0) Q I0)
    (hKR : ∀ b ∈ K.barcode, b.2 ≤ E.maxR) (hQR : ∀ b ∈ Q.barcode, b.2 ≤ E.maxR)
    {Z : α → Submodule (ZMod E.p) (ℕ → ZMod E.p)}
    (hG : Gens E 1 e K.barcode (K.coords.zcol E.p) Z (fun _ => ⊥))
    (hbQ : ∀ i b, Q.barcode[i]? = some b → E.BornBy 0 (e + 1) (Q.coords.zcol E.p i) b.1)
    (hbI : ∀ i b, I0.barcode[i]? = some b → E.BornBy 0 (e + 1) (I0.coords.zcol E.p i) b.1)
    {C L : LChains} {v : ℕ → ℕ → ℕ → ZMod E.p} (hreps : S.reps (E.noPages - 1) 1 e = [C, L])
    (hC : ChainIs E 1 e K.dim (fun k j => E.fam 1 e k (K.coords.zcol E.p j)) C)
    (hL : ChainIs E 0 (e + 1) K.dim (fun k j => v j k) L)
    (hlift : ∀ j b, K.barcode[j]? = some b → ∀ k < E.spx 0, E.PresentAt ρ 0 k (e + 1) (v j k) b.1 ∧
      E.bd 0 k (e + 1) (v j k) + E.cechSum D 0 e k (fun l => E.fam 1 e l (K.coords.zcol E.p j)) = 0)
    (hreps0 : Q.dim ≠ 0 → ∃ X, S.reps (E.noPages - 1) 0 (e + 1) = [X] ∧
      ChainIs E 0 (e + 1) Q.dim (fun k i => E.fam 0 (e + 1) k (Q.coords.zcol E.p i)) X)
    {exts : List Mat} (hrun : extension rnd E S 1 e = .ok exts) :
    ∃ B1 B0, exts = [B1, B0] ∧ MatOK E.p K.dim K.dim B1 ∧ anyRows B1.cols = false ∧
      ExtOut E ρ D e K Q I0 v B0 := by
  have hp0 := h.prime.pos
  unfold extension at hrun
  dsimp only at hrun
  split at hrun
  · cases hrun
  rw [hreps, (P1.last h2).1] at hrun
  set deaths := K.barcode.map Prod.snd with hde
  have hdl : deaths.length = K.dim := by rw [hde, List.length_map, P1.liftH.dim]
  have hdj : ∀ (j : ℕ) (b : α × α), K.barcode[j]? = some b → deaths[j]? = some b.2 := by
    intro j b hb
    rw [hde, List.getElem?_map, hb]; rfl
  split at hrun
  · -- every bar lives until the end
    next hmask =>
    have hinf : ∀ (j : ℕ) (b : α × α), K.barcode[j]? = some b → ¬ b.2 < E.maxR := by
      intro j b hb hlt
      rw [List.any_eq_false] at hmask
      refine hmask true ?_ rfl
      refine List.mem_map.2 ⟨b.2, List.mem_map.2 ⟨b, List.mem_of_getElem? hb, rfl⟩, ?_⟩
      simpa using hlt
    cases hrun
    refine ⟨_, _, rfl, ?_, ?_, ?_⟩
    · dsimp only
      rw [Nat.sub_zero, Nat.add_zero, (P1.last h2).2]
      refine ⟨rfl, by simp [hdl], ?_, ?_⟩
      · intro c hc; rw [List.eq_of_mem_replicate hc]; simp
      · intro c hc x hx
        rw [List.eq_of_mem_replicate hc] at hx
        rw [List.eq_of_mem_replicate hx]
        exact ⟨le_rfl, by exact_mod_cast hp0⟩
    · refine anyRows_false.2 fun c hc i => ?_
      rw [List.eq_of_mem_replicate hc]
      rw [List.getD_eq_getElem?_getD, List.getElem?_replicate]
      split <;> rfl
    · refine ⟨?_, ?_, fun j b hb hlt => absurd hlt (hinf j b hb)⟩
      · dsimp only
        rw [List.length_singleton, show (1 : ℕ) - 1 = 0 from rfl, (P0.last h2).2]
        by_cases hQ : Q.dim = 0
        · exact Or.inl ⟨hQ, hQ⟩
        · refine Or.inr ⟨hQ, rfl, by simp [hdl], ?_, ?_⟩
          · intro c hc; rw [List.eq_of_mem_replicate hc]; simp
          · intro c hc x hx
            rw [List.eq_of_mem_replicate hc] at hx
            rw [List.eq_of_mem_replicate hx]
            exact ⟨le_rfl, by exact_mod_cast hp0⟩
      · intro j b hb i _
        refine congrFun (anyRows_zv (p := E.p) (M := List.replicate _ (List.replicate _ 0)) ?_ j) i
        refine anyRows_false.2 fun c hc i => ?_
        rw [List.eq_of_mem_replicate hc]
        rw [List.getD_eq_getElem?_getD, List.getElem?_replicate]
        split <;> rfl
  -- the first round
  set mask := deaths.map fun d => decide (d < E.maxR) with hmask
  have hmj : ∀ (j : ℕ) (d : α), deaths[j]? = some d → mask.getD j false = decide (d < E.maxR) := by
    intro j d hd
    rw [hmask, List.getD_eq_getElem?_getD, List.getElem?_map, hd]; rfl
  rw [← hdl] at hC hL
  have hC0 := hC.zeroRows mask
  have hL0 := hL.zeroRows mask
  rw [List.length_cons, List.length_singleton, List.map_cons, List.map_singleton] at hrun
  obtain ⟨C0, o, bg, reps1, C1, C2, o', reps2, rest, r1, r2, r3, r4, r5, r6, r7, r8, r9, r10, r11⟩ :=
    extLoop_succ hrun
  obtain rfl : zeroRows mask C = C0 := Except.ok.inj r1
  obtain ⟨β, hβe, hβ, hβ0⟩ := extension_betas h hn hpos (by omega) h2 P1 hI1 hK0 hKR hG hde hC0 (by
    intro j d hd hlt k hk
    rw [hmj j d hd, decide_eq_true hlt, if_pos rfl]) r2 r3
  rw [hβe] at r4 r11
  obtain rfl : reps1 = [zeroRows mask C, zeroRows mask L] := by
    rcases r4 with ⟨-, h4⟩ | ⟨h4, -⟩
    · exact h4
    · rw [hβ0] at h4; cases h4
  obtain rfl : zeroRows mask C = C1 := Except.ok.inj r5
  obtain rfl := (extRounds_spec h hn hpos (by omega) P1 hC0 r6).1 hI1
  obtain ⟨-, -, o3, o4, o5⟩ := firstPageLift_spec h hn hpos (by omega : e < E.rows) hC0.wf hC0.refs r7
  rcases r9 with ⟨h0, -⟩ | ⟨-, J, Cn, Cn', q1, q2, q3, rfl⟩
  · exact absurd h0 one_ne_zero
  obtain rfl : zeroRows mask L = Cn := Except.ok.inj q2
  have hu := ChainIs.self o3 o4
  rw [show (1 : ℕ) - 1 = 0 from rfl] at q1 r10
  have hJ := cechDiff_chain h hD hn hpos (by omega) hu.minus q1
  have hCn := hL0.add hJ q3
  set u : ℕ → ℕ → ℕ → ZMod E.p := fun j l i => (o'.2.val l j i : ZMod E.p) with hude
  have hub : ∀ (j : ℕ) (b : α × α), K.barcode[j]? = some b → b.2 < E.maxR → ∀ l < E.spx 1,
      E.PresentAt ρ 1 l (e + 1) (u j l) b.2 ∧ E.fam 1 e l (K.coords.zcol E.p j) = E.bd 1 l (e + 1) (u j l) := by
    intro j b hb hlt
    have hj : j < deaths.length := by rw [hdl, P1.liftH.dim]; exact (List.getElem?_eq_some_iff.1 hb).1
    have hval : ∀ l < E.spx 1, (fun i => ((zeroRows mask C).val l j i : ZMod E.p)) =
        E.fam 1 e l (K.coords.zcol E.p j) := by
      intro l hl
      rw [hC0.val l hl j hj, hmj j _ (hdj j b hb), decide_eq_true hlt, if_pos rfl]
    obtain ⟨-, q⟩ := o5 j b.2 (hdj j b hb) hlt (by
      intro l hl
      rw [hval l hl]
      exact fam_cycle h hn (by omega) (BornBy.mono (P1.wfH b (List.mem_of_getElem? hb)).le (hG.born j b hb)) hl)
    intro l hl
    obtain ⟨q4, q5⟩ := q l hl
    refine ⟨q4, ?_⟩
    rw [hval l hl, anyRows_zv r8, map_zero, add_zero] at q5
    exact q5
  -- the second round
  obtain ⟨C0', p0, bg', reps1', C1', C2', p', reps2', rest', s1, s2, s3, s4, s5, s6, s7, s8, s9, s10, s11⟩ :=
    extLoop_succ r10
  obtain rfl : [] = rest' := Except.ok.inj s10
  rw [List.set_cons_succ, List.set_cons_zero] at s1 s4
  obtain rfl : Cn' = C0' := Except.ok.inj s1
  rw [zero_add] at s4 s5
  obtain ⟨p1, p2, -⟩ := firstPageLift_spec h (by omega : 0 < E.columns.length) hpos0 he hCn.wf hCn.refs s2
  set B0 : Mat := (bg'.map Prod.fst).getD ⟨0, []⟩ with hB0
  have hlt := liftToPage_spec h.prime P0 h2 le_rfl (fun c hc => fun x hx => (p2 c hc).2 x hx) s3
  have hshape : (Q.dim = 0 ∧ B0 = ⟨0, []⟩) ∨ (Q.dim ≠ 0 ∧ MatOK E.p Q.dim K.dim B0) := by
    rcases hlt with ⟨hQ, hb⟩ | ⟨hQ, β', γ, γ', hb, hm, -⟩
    · left; refine ⟨hQ, ?_⟩; rw [hB0, hb]; rfl
    · right
      rw [p1, hdl] at hm
      refine ⟨hQ, ?_⟩
      rw [hB0, hb]; exact hm
  have hlife : ∀ (j : ℕ) (b : α × α), K.barcode[j]? = some b → ∀ i, ¬ AliveBar Q.barcode i b.2 → B0.zcol E.p j i = 0 := by
    intro j b hb i hi
    rcases hlt with ⟨hQ, hbg⟩ | ⟨hQ, β', γ, γ', hbg, hm, -, -, -, hrel⟩
    · rw [hB0, hbg]
      unfold Mat.zcol
      exact zv_of_le _ (by simp)
    · have hj : j < deaths.length := by rw [hdl, P1.liftH.dim]; exact (List.getElem?_eq_some_iff.1 hb).1
      obtain ⟨b', hb', -, hs, -⟩ := hrel j (by omega)
      rw [List.getElem?_map, hdj j b hb] at hb'
      obtain rfl : (b.2, E.maxR) = b' := Option.some.inj hb'
      rw [hB0, hbg]
      exact hs i hi
  have hC1 : ∃ X, atE reps1' 1 = .ok X ∧ ChainIs E 0 (e + 1) deaths.length (fun k j =>
      ((if mask.getD j false then v j k else 0) + E.cechSum D 0 (e + 1) k (fun l => - u j l)) -
        E.fam 0 (e + 1) k (∑ i ∈ range Q.dim, B0.zcol E.p j i • Q.coords.zcol E.p i)) X := by
    rcases s4 with ⟨hz, rfl⟩ | ⟨hz, hsub⟩
    · refine ⟨Cn', rfl, hCn.congr fun k _ j _ => ?_⟩
      rw [Finset.sum_eq_zero, map_zero, sub_zero]
      intro i _
      have := congrFun (anyRows_zv (p := E.p) hz j) i
      rw [show B0.zcol E.p j i = 0 from this, zero_smul]
    · rcases hshape with ⟨-, hB⟩ | ⟨hQ, hB⟩
      · rw [hB] at hz; cases hz
      obtain ⟨X, hX, hXc⟩ := hreps0 hQ
      obtain ⟨b, Y, Y', t1, t2, t3, rfl⟩ := extSubtract_one hX hsub
      obtain rfl : Cn' = Y := Except.ok.inj t2
      rw [show B0.nrows = Q.dim from hB.rows] at t1
      have hsum := hXc.sums t1
      rw [List.length_map, show B0.cols.length = deaths.length by rw [hdl]; exact hB.ncols] at hsum
      refine ⟨Y', rfl, (hCn.subtractBeta h.prime hsum t3).congr fun k _ j hj => ?_⟩
      rw [sub_eq_add_neg]
      congr 1
      rw [fam_smulsum, ← Finset.sum_neg_distrib]
      refine Finset.sum_congr rfl fun i _ => ?_
      have hjB : j < B0.cols.length := by rw [show B0.cols.length = K.dim from hB.ncols]; omega
      rw [getD_map_lt hjB, zv_scale]
      unfold Mat.zcol
      rw [List_getD_eq_getElem B0.cols _ hjB]
      simp
  obtain ⟨X, hX1, hX⟩ := hC1
  rw [hX1] at s5
  obtain rfl := Except.ok.inj s5
  obtain ⟨-, g, hg, hX2⟩ := extRounds_spec h (by omega) hpos0 he P0 hX s6
  obtain ⟨-, -, -, -, f5⟩ := firstPageLift_spec h (by omega : 0 < E.columns.length) hpos0 he hX2.wf hX2.refs s7
  refine ⟨β, B0, by rw [r11, s11], hβ, hβ0, ?_, hlife, ?_⟩
  · rcases hshape with ⟨hQ, hB⟩ | hB
    · left; exact ⟨hQ, by rw [hB]⟩
    · right; exact hB
  · intro j b hb hbR
    have hj : j < deaths.length := by rw [hdl, P1.liftH.dim]; exact (List.getElem?_eq_some_iff.1 hb).1
    have hcomb : E.BornBy 0 (e + 1) (∑ i ∈ range Q.dim, B0.zcol E.p j i • Q.coords.zcol E.p i) b.2 :=
      Comb.born ⟨B0.zcol E.p j, hlife j b hb, rfl⟩ hbQ
    have hgb := Comb.born (hg j b.2 (hdj j b hb)) hbI
    have hval : ∀ k < E.spx 0, (fun i => (C2'.val k j i : ZMod E.p)) =
        v j k + E.cechSum D 0 (e + 1) k (fun l => - u j l) -
          E.fam 0 (e + 1) k (∑ i ∈ range Q.dim, B0.zcol E.p j i • Q.coords.zcol E.p i) -
          E.fam 0 (e + 1) k (g j) := by
      intro k hk
      rw [hX2.val k hk j hj, hmj j _ (hdj j b hb), decide_eq_true hbR, if_pos rfl]
    obtain ⟨-, q⟩ := f5 j b.2 (hdj j b hb) hbR (by
      intro k hk
      rw [hval k hk]
      obtain ⟨l1, l2⟩ := hlift j b hb k hk
      have c1 := fam_cycle h (by omega : 0 < E.columns.length) he hcomb hk
      have c2 := fam_cycle h (by omega : 0 < E.columns.length) he hgb hk
      have hcb : E.bd 0 k (e + 1) (E.cechSum D 0 (e + 1) k (fun l => - u j l)) =
          E.cechSum D 0 e k (fun l => E.fam 1 e l (K.coords.zcol E.p j)) := by
        have := cechSum_bd h hD hn (by omega : e < E.rows) hk (fun l => - u j l)
        rw [← neg_eq_iff_eq_neg] at this
        rw [← this, cechSum_congr (c := fun l => E.fam 1 e l (K.coords.zcol E.p j))
          (c' := fun l => E.bd 1 l (e + 1) (u j l)) (fun l hl => (hub j b hb hbR l hl).2)]
        have hneg : (fun l => E.bd 1 l (e + 1) (- u j l)) = fun l => 0 - E.bd 1 l (e + 1) (u j l) := by
          funext l; rw [map_neg, zero_sub]
        rw [hneg, cechSum_sub, cechSum_zero, zero_sub, neg_neg]
      refine ⟨?_, ?_⟩
      · refine PresentAt.sub (PresentAt.sub (PresentAt.add ?_ ?_) c1.1) c2.1
        · exact PresentAt.mono (P1.wfH b (List.mem_of_getElem? hb)).le l1
        · exact PresentAt.cechSum fun l hl => PresentAt.neg (hub j b hb hbR l hl).1
      · rw [map_sub, map_sub, map_add, c1.2, c2.2, sub_zero, sub_zero, hcb, l2])
    refine ⟨fun l => - u j l, g j, fun k i => (p'.2.val k j i : ZMod E.p), hg j b.2 (hdj j b hb), fun k hk => ?_⟩
    obtain ⟨q4, q5⟩ := q k hk
    refine ⟨q4, ?_⟩
    rw [hval k hk, anyRows_zv s8, map_zero, add_zero] at q5
    rw [← P0.liftH.dim]
    exact q5

end

end Permaviss
