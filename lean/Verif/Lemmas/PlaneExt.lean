import Verif.Lemmas.PlaneLift

/-!
# The extension from the second column, in total degree one
-/

namespace Permaviss

open Finset

attribute [-instance] instMulZeroClassOfSemiring

section

variable {α : Type} [LinearOrder α] [Zero α] {rnd : α → α} {E : SSEnv α} {ρ : List ℕ → α}

theorem extSubtract_pair {S : SSt α} {n deg : ℕ} {B : Mat} {A L : LChains} {reps' : List LChains} {X Y : LChains}
    (hX : S.reps (E.noPages - 1) n deg = [X, Y]) (h : extSubtract E S n deg 0 B [A, L] = .ok reps') :
    ∃ b b' A' L', LChains.sums X (B.cols.map (scale (-1))) B.nrows = .ok b ∧
      LChains.sums Y (B.cols.map (scale (-1))) B.nrows = .ok b' ∧
      subtractBeta E.p A b = .ok A' ∧ subtractBeta E.p L b' = .ok L' ∧ reps' = [A', L'] := by
  unfold extSubtract at h
  rw [hX] at h
  have e : (List.range [X, Y].length).zip [X, Y] = [(0, X), (1, Y)] := rfl
  rw [e] at h
  simp only [List.foldlM_cons, List.foldlM_nil, add_zero] at h
  rw [bind_ok] at h
  obtain ⟨r, h, h'⟩ := h
  rw [bind_ok] at h
  obtain ⟨b, h1, h⟩ := h
  rw [bind_ok] at h
  obtain ⟨C, h2, h⟩ := h
  obtain rfl : A = C := Except.ok.inj h2
  rw [bind_ok] at h
  obtain ⟨A', h3, h⟩ := h
  cases h
  rw [bind_ok] at h'
  obtain ⟨r, h', h''⟩ := h'
  cases h''
  rw [bind_ok] at h'
  obtain ⟨b', h4, h'⟩ := h'
  rw [bind_ok] at h'
  obtain ⟨C, h5, h'⟩ := h'
  obtain rfl : L = C := Except.ok.inj h5
  rw [bind_ok] at h'
  obtain ⟨L', h6, h'⟩ := h'
  cases h'
  exact ⟨b, b', A', L', h1, h4, h3, h6, rfl⟩

/-- On the image of the first differential on the second column, the Čech differential is that of boundaries of
chains that are present at radius zero. -/
theorem mid_image_cech (h : SSOK rnd E ρ) (hlen : 2 < E.columns.length) (hrow : 0 < E.rows) (hR : 0 < E.maxR)
    (hb0 : ∀ b ∈ E.firstBars 0 1, b.1 = 0)
    {D D' : Mat} (hD : E.nerveDiff[0]? = some D) (hD' : E.nerveDiff[1]? = some D') {M M2 : Mat}
    (hM2 : firstDifferential E 1 0 = .ok M2) {S : SSt α} {Q I : Basis α} (P : MidPos E ρ rnd S 0 D M Q I)
    {d : α} {g : ℕ → ZMod E.p} (hg : Comb E.p I d g) :
    ∃ w : ℕ → ℕ → ZMod E.p, (∀ l < E.spx 1, E.PresentAt ρ 1 l 1 (w l) 0) ∧ ∀ k < E.spx 0,
      E.cechSum D 0 0 k (fun l => E.fam 1 0 l g) = E.cechSum D 0 0 k (fun l => E.bd 1 l 1 (w l)) := by
  obtain ⟨γ, -, rfl⟩ := hg
  have key : ∀ i < I.dim, ∃ w : ℕ → ℕ → ZMod E.p, (∀ l < E.spx 1, E.PresentAt ρ 1 l 1 (w l) 0) ∧ ∀ k < E.spx 0,
      E.cechSum D 0 0 k (fun l => E.fam 1 0 l (I.coords.zcol E.p i)) =
        E.cechSum D 0 0 k (fun l => E.bd 1 l 1 (w l)) := by
    intro i hi
    have hi' : i < I.barcode.length := by rw [← P.liftI.dim]; exact hi
    have hIi := List.getElem?_eq_getElem hi'
    obtain ⟨b1, b2⟩ := P.birthI _ (List.getElem_mem hi')
    have hborn : E.BornBy 1 0 (I.coords.zcol E.p i) _ := P.bornI i _ hIi
    rcases b1.lt_or_eq with hlt | heq
    · have h0 : I.coords.zcol E.p i = 0 := by
        funext r
        by_contra hne
        obtain ⟨c, hc, hle⟩ := hborn r hne
        rw [hb0 c (List.mem_of_getElem? hc)] at hle
        exact absurd (hle.trans_lt hlt) (lt_irrefl _)
      refine ⟨fun _ => 0, fun l _ j hj => absurd rfl hj, fun k _ => ?_⟩
      rw [h0]
      exact cechSum_congr fun l _ => by rw [map_zero, map_zero]
    · rw [heq] at hborn b2
      have hm := P.memI 0 (I.coords.zcol E.p i) ⟨Pi.single i 1, fun j hj =>
        Pi.single_eq_of_ne (by rintro rfl; exact hj ⟨_, hIi, heq.le, b2⟩) _, by
          rw [Finset.sum_eq_single i]
          · rw [Pi.single_eq_same, one_smul]
          · intro j _ hne; rw [Pi.single_eq_of_ne hne, zero_smul]
          · intro hc; exact absurd (mem_range.2 hi) hc⟩
      rw [rowBounds_eq (by omega) hM2] at hm
      obtain ⟨κ, w, -, hw⟩ := bounds_fam h hD' (by omega) hrow hM2 hR hborn hm
      refine ⟨w, fun l hl => (hw l hl).1, fun k hk => ?_⟩
      rw [cechSum_congr (c' := fun l => E.cechSum D' 1 0 l (fun m => E.fam 2 0 m κ) + E.bd 1 l 1 (w l))
        (fun l hl => (hw l hl).2), cechSum_add, cechSum_cechSum h hD hD' (by omega) (by omega) hk, zero_add]
  choose! w hw1 hw2 using key
  refine ⟨fun l => ∑ i ∈ range I.dim, γ i • w i l, fun l hl => PresentAt.sum _ _ fun i hi =>
    PresentAt.smul _ (hw1 i (mem_range.1 hi) l hl), fun k hk => ?_⟩
  rw [cechSum_congr (c' := fun l => ∑ i ∈ range I.dim, γ i • E.fam 1 0 l (I.coords.zcol E.p i))
    (fun l _ => fam_smulsum _ _), cechSum_smulsum,
    cechSum_congr (c' := fun l => ∑ i ∈ range I.dim, γ i • E.bd 1 l 1 (w i l))
    (fun l _ => by rw [map_sum]; exact Finset.sum_congr rfl fun i _ => map_smul _ _ _), cechSum_smulsum]
  exact Finset.sum_congr rfl fun i hi => by rw [hw2 i (mem_range.1 hi) k hk]

/-- Chains on the pieces, each a boundary or equal to a Čech differential of chains present at radius zero:
their sum is a boundary of the whole complex, if cycles at radius zero are. -/
theorem sum_up_to_zero (h : SSOK rnd E ρ) {N : ℕ} {D : Mat} (C : CoverOK E ρ N D) (he : 1 < E.rows)
    (hzero : E.ZG ρ N 1 0 ≤ E.BG ρ N 1 0) {t : α} (ht : 0 ≤ t) {w f : ℕ → ℕ → ZMod E.p}
    (hw : ∀ l < E.spx 1, E.PresentAt ρ 1 l 1 (w l) 0)
    (hbd : ∀ k < E.spx 0, E.bd 0 k 1 (f k) = E.bd 0 k 1 (E.cechSum D 0 1 k w))
    (hf : ∀ k < E.spx 0, f k = E.cechSum D 0 1 k w ∨
      ∃ y, E.PresentAt ρ 0 k 2 y t ∧ f k = E.bd 0 k 2 y) : E.glSum 1 f ∈ E.BG ρ N 1 t := by
  classical
  have key : ∀ k, ∃ y : ℕ → ZMod E.p, k < E.spx 0 → ¬ f k = E.cechSum D 0 1 k w →
      E.PresentAt ρ 0 k 2 y t ∧ f k = E.bd 0 k 2 y := by
    intro k
    by_cases hk : k < E.spx 0
    · rcases hf k hk with h1 | ⟨y, h1⟩
      · exact ⟨0, fun _ hc => absurd h1 hc⟩
      · exact ⟨y, fun _ _ => h1⟩
    · exact ⟨0, fun hc => absurd hc hk⟩
  choose y hy using key
  set f1 : ℕ → ℕ → ZMod E.p := fun k => if f k = E.cechSum D 0 1 k w then E.cechSum D 0 1 k w else 0 with hf1
  set y1 : ℕ → ℕ → ZMod E.p := fun k => if f k = E.cechSum D 0 1 k w then 0 else y k with hy1
  have hsplit : ∀ k < E.spx 0, f k = E.bd 0 k 2 (y1 k) + f1 k := by
    intro k hk
    rw [hf1, hy1]
    dsimp only
    by_cases hc : f k = E.cechSum D 0 1 k w
    · rw [if_pos hc, if_pos hc, map_zero, zero_add]; exact hc
    · rw [if_neg hc, if_neg hc, add_zero]; exact (hy k hk hc).2
  have hp1 : ∀ k < E.spx 0, E.PresentAt ρ 0 k 1 (f1 k) 0 := by
    intro k hk
    rw [hf1]
    dsimp only
    split
    · exact PresentAt.cechSum hw
    · exact fun j hj => absurd rfl hj
  have hp2 : ∀ k < E.spx 0, E.PresentAt ρ 0 k 2 (y1 k) t := by
    intro k hk
    rw [hy1]
    dsimp only
    split
    · exact fun j hj => absurd rfl hj
    · next hc => exact (hy k hk hc).1
  have hclosed : E.glSum 0 (fun k => E.bd 0 k 1 (f1 k)) = 0 := by
    rw [glSum_congr (c' := fun k => E.bd 0 k 1 (E.cechSum D 0 1 k w)) (fun k hk => ?_)]
    · rw [← glSum_closed_iff h C (by omega : 0 < E.rows), glSum_cech h C he.le, map_zero]
    · rw [hf1]
      dsimp only
      split
      · rfl
      · next hc =>
        rw [map_zero, ← hbd k hk, (hy k hk hc).2,
          (present_bd h (by have := C.cols; omega) he hk (hy k hk hc).1).2]
  have e1 := glSum_congr (E := E) (deg := 1) hsplit
  rw [glSum_add'] at e1
  rw [e1]
  refine Submodule.add_mem _ (glSum_bd_mem h C he hp2) (BG_mono ht (hzero ⟨glSum_present h C he.le hp1, ?_⟩))
  exact (glSum_closed_iff h C (by omega : 0 < E.rows) f1).2 hclosed

/-- What `extension` returns for the second column in degree zero. -/
structure PlaneExt (E : SSEnv α) (ρ : List ℕ → α) (N : ℕ) (K Q : Basis α) (x : ℕ → ℕ → ZMod E.p)
    (v : ℕ → ℕ → ℕ → ZMod E.p) (B1 B0 : Mat) : Prop where
  shape1 : MatOK E.p K.dim K.dim B1
  shape0 : (Q.dim = 0 ∧ B0.nrows = 0) ∨ (Q.dim ≠ 0 ∧ MatOK E.p Q.dim K.dim B0)
  life1 : ∀ j b, K.barcode[j]? = some b → ∀ i, ¬ AliveBar K.barcode i b.2 → B1.zcol E.p j i = 0
  life0 : ∀ j b, K.barcode[j]? = some b → ∀ i, ¬ AliveBar Q.barcode i b.2 → B0.zcol E.p j i = 0
  dies : ∀ j b, K.barcode[j]? = some b → b.2 < E.maxR →
    E.glSum 1 (v j) - (∑ i ∈ range Q.barcode.length, B0.zcol E.p j i • E.whole 1 (x i) +
      ∑ i ∈ range K.barcode.length, B1.zcol E.p j i • E.glSum 1 (v i)) ∈ E.BG ρ N 1 b.2

theorem zeroMat_ok {p : ℕ} (hp : 0 < p) (m n : ℕ) : MatOK p m n ⟨m, List.replicate n (List.replicate m 0)⟩ := by
  refine ⟨rfl, by simp [Mat.ncols], ?_, ?_⟩
  · intro c hc; rw [List.eq_of_mem_replicate hc]; simp
  · intro c hc x hx
    rw [List.eq_of_mem_replicate hc] at hx
    rw [List.eq_of_mem_replicate hx]
    exact ⟨le_rfl, by exact_mod_cast hp⟩

theorem zeroMat_zcol {p : ℕ} (r m n j : ℕ) : Mat.zcol p ⟨r, List.replicate n (List.replicate m 0)⟩ j = 0 := by
  refine anyRows_zv (M := List.replicate _ (List.replicate _ 0)) ?_ j
  refine anyRows_false.2 fun c hc i => ?_
  rw [List.eq_of_mem_replicate hc]
  rw [List.getD_eq_getElem?_getD, List.getElem?_replicate]
  split <;> rfl

/-- Combinations of the chains that represent a position, with minus signs. -/
theorem neg_sums {n deg m nc : ℕ} {f : ℕ → ℕ → ℕ → ZMod E.p} {X b : LChains} {B : Mat}
    (hX : ChainIs E n deg m f X) (hB : MatOK E.p m nc B)
    (h : LChains.sums X (B.cols.map (scale (-1))) B.nrows = .ok b) :
    ChainIs E n deg nc (fun k j => - ∑ i ∈ range m, B.zcol E.p j i • f k i) b := by
  rw [hB.rows] at h
  have hsum := hX.sums h
  rw [List.length_map, show B.cols.length = nc from hB.ncols] at hsum
  refine hsum.congr fun k _ j hj => ?_
  rw [← Finset.sum_neg_distrib]
  refine Finset.sum_congr rfl fun i _ => ?_
  have hjB : j < B.cols.length := by rw [show B.cols.length = nc from hB.ncols]; exact hj
  rw [getD_map_lt hjB, zv_scale]
  unfold Mat.zcol
  rw [List_getD_eq_getElem B.cols _ hjB]
  simp

theorem extension_plane (h : SSOK rnd E ρ) {N : ℕ} {D D' M M1 M2 : Mat} (C : CoverOK E ρ N D)
    (hD' : E.nerveDiff[1]? = some D') (hlen : 2 < E.columns.length) (hpos : 0 < E.spx 1) (hpos0 : 0 < E.spx 0)
    (he : 1 < E.rows) (h4 : 4 ≤ E.noPages) (hR : 0 < E.maxR)
    (hb0 : ∀ d < E.columns.length, ∀ b ∈ E.firstBars 0 d, b.1 = 0) (hzero : E.ZG ρ N 1 0 ≤ E.BG ρ N 1 0)
    (hM1 : firstDifferential E 0 1 = .ok M1) (hM2 : firstDifferential E 1 0 = .ok M2)
    {S : SSt α} {K I H I1 Q I2 : Basis α} (P : MidPos E ρ rnd S 0 D M K I)
    (keptK : ∀ k, 2 ≤ k → k < E.noPages → KeptPage S 1 0 k K) (hK0 : K.dim ≠ 0)
    (F : FirstPos E rnd S 1 M1 H I1) (T : ThirdPos E ρ N rnd S H Q I2)
    (keptQ : ∀ k, 3 ≤ k → k < E.noPages → KeptPage S 0 1 k Q)
    {C0 L : LChains} {v : ℕ → ℕ → ℕ → ZMod E.p} (hreps : S.reps (E.noPages - 1) 1 0 = [C0, L])
    (hC : ChainIs E 1 0 K.dim (fun k j => E.fam 1 0 k (K.coords.zcol E.p j)) C0)
    (hL : ChainIs E 0 1 K.dim (fun k j => v j k) L)
    (hlift : ∀ j b, K.barcode[j]? = some b → ∀ k < E.spx 0, E.PresentAt ρ 0 k 1 (v j k) b.1 ∧
      E.bd 0 k 1 (v j k) + E.cechSum D 0 0 k (fun l => E.fam 1 0 l (K.coords.zcol E.p j)) = 0)
    (hreps0 : Q.dim ≠ 0 → ∃ X, S.reps (E.noPages - 1) 0 1 = [X] ∧ ChainIs E 0 1 Q.dim (fun k i =>
      E.fam 0 1 k (linOf (H.coords.zcol E.p) H.barcode.length (Q.coords.zcol E.p i))) X)
    {exts : List Mat} (hrun : extension rnd E S 1 0 = .ok exts) :
    ∃ B1 B0, exts = [B1, B0] ∧ PlaneExt E ρ N K Q
      (fun i => linOf (H.coords.zcol E.p) H.barcode.length (Q.coords.zcol E.p i)) v B1 B0 := by
  have hp0 := h.prime.pos
  have hD := C.diff
  have hKR := P.gens.le_maxR h (by omega) (by omega)
  have P1 : LiftPos E S 1 0 (E.firstBars 0 1) K I := ⟨P.hom, P.prev1, P.im,
    fun b hb => (h.firstBars_lt (by omega) (by omega) b hb).1, P.gens.wf, P.liftH, P.liftI, keptK⟩
  have P0 : LiftTwo E S 0 1 (E.firstBars 1 0) H I1 Q I2 := ⟨F.hom, F.prev1, F.im,
    fun b hb => (h.firstBars_lt (by omega) he b hb).1, F.gens.wf, F.liftH, F.liftI, T.hom, T.prev2, T.im,
    T.gens.wf, T.liftH, T.liftI, fun h0 => by
      rw [T.liftH.dim, List.length_eq_zero_iff]
      by_contra hne
      obtain ⟨b, hb⟩ := List.exists_mem_of_ne_nil _ hne
      obtain ⟨c, hc, -⟩ := T.birth b hb
      rw [F.liftH.dim, List.length_eq_zero_iff] at h0
      rw [h0] at hc; simp at hc, keptQ⟩
  have lastK := P1.last (by omega)
  have lastQ := keptQ (E.noPages - 1) (by omega) (by omega)
  unfold extension at hrun
  dsimp only at hrun
  split at hrun
  · cases hrun
  rw [hreps, lastK.1] at hrun
  set deaths := K.barcode.map Prod.snd with hde
  have hdl : deaths.length = K.dim := by rw [hde, List.length_map, P1.liftH.dim]
  have hdj : ∀ (j : ℕ) (b : α × α), K.barcode[j]? = some b → deaths[j]? = some b.2 := by
    intro j b hb
    rw [hde, List.getElem?_map, hb]; rfl
  split at hrun
  · -- every bar lives until the end
    next hmask =>
    have hinf : ∀ (j : ℕ) (b : α × α), K.barcode[j]? = some b → ¬ b.2 < E.maxR := by
      intro j b hb hlt
      rw [List.any_eq_false] at hmask
      refine hmask true ?_ rfl
      refine List.mem_map.2 ⟨b.2, List.mem_map.2 ⟨b, List.mem_of_getElem? hb, rfl⟩, ?_⟩
      simpa using hlt
    cases hrun
    refine ⟨_, _, rfl, ?_, ?_, fun j b hb i _ => by rw [zeroMat_zcol]; rfl,
      fun j b hb i _ => by rw [zeroMat_zcol]; rfl, fun j b hb hlt => absurd hlt (hinf j b hb)⟩
    · dsimp only
      rw [Nat.sub_zero, Nat.add_zero, lastK.2, hdl]
      exact zeroMat_ok hp0 _ _
    · dsimp only
      rw [List.length_singleton, show (1 : ℕ) - 1 = 0 from rfl, zero_add, lastQ.dim, hdl]
      by_cases hQ : Q.dim = 0
      · exact Or.inl ⟨hQ, hQ⟩
      · exact Or.inr ⟨hQ, zeroMat_ok hp0 _ _⟩
  -- the first round
  set mask := deaths.map fun d => decide (d < E.maxR) with hmask
  have hmj : ∀ (j : ℕ) (d : α), deaths[j]? = some d → mask.getD j false = decide (d < E.maxR) := by
    intro j d hd
    rw [hmask, List.getD_eq_getElem?_getD, List.getElem?_map, hd]; rfl
  have hC0 := hC.zeroRows mask
  have hL0 := hL.zeroRows mask
  rw [List.length_cons, List.length_singleton, List.map_cons, List.map_singleton] at hrun
  obtain ⟨A0, o, bg, reps1, C1, C2, o', reps2, rest, r1, r2, r3, r4, r5, r6, r7, r8, r9, r10, r11⟩ :=
    extLoop_succ hrun
  obtain rfl : zeroRows mask C0 = A0 := Except.ok.inj r1
  rw [← hdl] at hC0 hL0
  obtain ⟨o1, o2, -⟩ := firstPageLift_spec h (by omega : 1 < E.columns.length) hpos (by omega : 0 < E.rows)
    hC0.wf hC0.refs r2
  obtain ⟨B1, hB1e, hB1, hlife1⟩ : ∃ B1, (bg.map Prod.fst).getD ⟨0, []⟩ = B1 ∧ MatOK E.p K.dim K.dim B1 ∧
      ∀ j b, K.barcode[j]? = some b → ∀ i, ¬ AliveBar K.barcode i b.2 → B1.zcol E.p j i = 0 := by
    rcases liftToPage_spec h.prime P1 (by omega) le_rfl (fun c hc => fun x hx => (o2 c hc).2 x hx) r3 with
      ⟨h0, -⟩ | ⟨-, β, γ, γ', rfl, hβ, -, -, -, hrel⟩
    · exact absurd h0 hK0
    rw [o1, hdl] at hβ
    refine ⟨β, rfl, hβ, fun j b hb i hi => ?_⟩
    have hj : j < deaths.length := by rw [hdl, P1.liftH.dim]; exact (List.getElem?_eq_some_iff.1 hb).1
    obtain ⟨b', hb', -, hs, -⟩ := hrel j (by omega)
    rw [List.getElem?_map, hdj j b hb] at hb'
    obtain rfl : (b.2, E.maxR) = b' := Option.some.inj hb'
    exact hs i hi
  rw [hB1e] at r4 r11
  set yB : ℕ → ℕ → ZMod E.p := fun j => ∑ i ∈ range K.dim, B1.zcol E.p j i • K.coords.zcol E.p i with hyB
  set vB : ℕ → ℕ → ℕ → ZMod E.p := fun j k => ∑ i ∈ range K.dim, B1.zcol E.p j i • v i k with hvB
  obtain ⟨A1, L1, rfl, hA1, hL1⟩ : ∃ A1 L1, reps1 = [A1, L1] ∧
      ChainIs E 1 0 deaths.length (fun k j => (if mask.getD j false then E.fam 1 0 k (K.coords.zcol E.p j) else 0) -
        E.fam 1 0 k (yB j)) A1 ∧
      ChainIs E 0 1 deaths.length (fun k j => (if mask.getD j false then v j k else 0) - vB j k) L1 := by
    rcases r4 with ⟨hz, rfl⟩ | ⟨hz, hsub⟩
    · have hz' : ∀ j i, B1.zcol E.p j i = 0 := fun j i => congrFun (anyRows_zv (p := E.p) hz j) i
      refine ⟨_, _, rfl, hC0.congr fun k _ j _ => ?_, hL0.congr fun k _ j _ => ?_⟩
      · have : yB j = 0 := Finset.sum_eq_zero fun i _ => by rw [hz', zero_smul]
        rw [this, map_zero, sub_zero]
      · have : vB j k = 0 := Finset.sum_eq_zero fun i _ => by rw [hz', zero_smul]
        rw [this, sub_zero]
    · obtain ⟨b, b', A1, L1, t1, t2, t3, t4, rfl⟩ := extSubtract_pair hreps hsub
      have u1 := neg_sums hC hB1 t1
      have u2 := neg_sums hL hB1 t2
      rw [← hdl] at u1 u2
      refine ⟨A1, L1, rfl, (hC0.subtractBeta h.prime u1 t3).congr fun k _ j _ => ?_,
        (hL0.subtractBeta h.prime u2 t4).congr fun k _ j _ => ?_⟩
      · rw [sub_eq_add_neg, hyB, fam_smulsum, hdl]
      · rw [sub_eq_add_neg, hvB, hdl]
  obtain rfl : A1 = C1 := Except.ok.inj r5
  obtain ⟨-, g, hg, hC2⟩ := extRounds_spec h (by omega : 1 < E.columns.length) hpos (by omega : 0 < E.rows) P1 hA1 r6
  obtain ⟨-, -, o3, o4, o5⟩ := firstPageLift_spec h (by omega : 1 < E.columns.length) hpos (by omega : 0 < E.rows)
    hC2.wf hC2.refs r7
  rcases r9 with ⟨h0, -⟩ | ⟨-, J, Cn, Cn', q1, q2, q3, rfl⟩
  · exact absurd h0 one_ne_zero
  obtain rfl : L1 = Cn := Except.ok.inj q2
  have hu := ChainIs.self o3 o4
  rw [show (1 : ℕ) - 1 = 0 from rfl] at q1 r10
  have hJ := cechDiff_chain h hD (by omega) hpos (by omega) hu.minus q1
  have hCn := hL1.add hJ q3
  set u : ℕ → ℕ → ℕ → ZMod E.p := fun j l i => (o'.2.val l j i : ZMod E.p) with hude
  have hbyB : ∀ (j : ℕ) (b : α × α), K.barcode[j]? = some b → E.BornBy 1 0 (yB j) b.2 := by
    intro j b hb
    exact BornBy.comb P.gens.born (hlife1 j b hb) _
  have hgb : ∀ (j : ℕ) (b : α × α), K.barcode[j]? = some b → E.BornBy 1 0 (g j) b.2 := by
    intro j b hb
    exact Comb.born (hg j b.2 (hdj j b hb)) P.bornI
  have hub : ∀ (j : ℕ) (b : α × α), K.barcode[j]? = some b → b.2 < E.maxR → ∀ l < E.spx 1,
      E.PresentAt ρ 1 l 1 (u j l) b.2 ∧
      E.fam 1 0 l (K.coords.zcol E.p j) - E.fam 1 0 l (yB j) - E.fam 1 0 l (g j) = E.bd 1 l 1 (u j l) := by
    intro j b hb hlt
    have hj : j < deaths.length := by rw [hdl, P1.liftH.dim]; exact (List.getElem?_eq_some_iff.1 hb).1
    have hval : ∀ l < E.spx 1, (fun i => (C2.val l j i : ZMod E.p)) =
        E.fam 1 0 l (K.coords.zcol E.p j) - E.fam 1 0 l (yB j) - E.fam 1 0 l (g j) := by
      intro l hl
      rw [hC2.val l hl j hj, hmj j _ (hdj j b hb), decide_eq_true hlt, if_pos rfl]
    obtain ⟨-, q⟩ := o5 j b.2 (hdj j b hb) hlt (by
      intro l hl
      rw [hval l hl, ← map_sub, ← map_sub]
      exact fam_cycle h (by omega) (by omega) (BornBy.sub (BornBy.sub (BornBy.mono
        (P1.wfH b (List.mem_of_getElem? hb)).le (P.gens.born j b hb)) (hbyB j b hb)) (hgb j b hb)) hl)
    intro l hl
    obtain ⟨q4, q5⟩ := q l hl
    refine ⟨q4, ?_⟩
    rw [hval l hl, anyRows_zv r8, map_zero, add_zero] at q5
    exact q5
  -- the second round
  obtain ⟨C0', p0, bg', reps1', C1', C2', p', reps2', rest', s1, s2, s3, s4, s5, s6, s7, s8, s9, s10, s11⟩ :=
    extLoop_succ r10
  obtain rfl : [] = rest' := Except.ok.inj s10
  rw [List.set_cons_succ, List.set_cons_zero] at s1 s4
  obtain rfl : Cn' = C0' := Except.ok.inj s1
  simp only [zero_add] at s2 s3 s4 s5 s6 s7
  have hCn : ChainIs E 0 1 deaths.length (fun k j => ((if mask.getD j false then v j k else 0) - vB j k) +
      E.cechSum D 0 1 k (fun l => - u j l)) Cn' := hCn
  obtain ⟨p1, p2, -⟩ := firstPageLift_spec h (by omega : 0 < E.columns.length) hpos0 he hCn.wf hCn.refs s2
  set B0 : Mat := (bg'.map Prod.fst).getD ⟨0, []⟩ with hB0
  have hlt := liftToPage_two h.prime P0 (by omega) le_rfl (fun c hc => fun x hx => (p2 c hc).2 x hx) s3
  have hshape : (Q.dim = 0 ∧ B0 = ⟨0, []⟩) ∨ (Q.dim ≠ 0 ∧ MatOK E.p Q.dim K.dim B0) := by
    rcases hlt with ⟨hb, hQ⟩ | ⟨β', γ, hb, -, -, hQ, -, -, hm⟩
    · left; refine ⟨hQ (by omega), ?_⟩; rw [hB0, hb]; rfl
    · right
      have hm := (hm (by omega)).1
      rw [p1, hdl] at hm
      refine ⟨hQ (by omega), ?_⟩
      rw [hB0, hb]; exact hm
  have hlife0 : ∀ (j : ℕ) (b : α × α), K.barcode[j]? = some b → ∀ i, ¬ AliveBar Q.barcode i b.2 → B0.zcol E.p j i = 0 := by
    intro j b hb i hi
    rcases hlt with ⟨hbg, -⟩ | ⟨β', γ, hbg, -, -, -, -, -, hm⟩
    · rw [hB0, hbg]
      unfold Mat.zcol
      exact zv_of_le _ (by simp)
    · have hj : j < deaths.length := by rw [hdl, P1.liftH.dim]; exact (List.getElem?_eq_some_iff.1 hb).1
      obtain ⟨b', hb', hs⟩ := (hm (by omega)).2 j (by omega)
      rw [List.getElem?_map, hdj j b hb] at hb'
      obtain rfl : (b.2, E.maxR) = b' := Option.some.inj hb'
      rw [hB0, hbg]
      exact hs i hi
  set x : ℕ → ℕ → ZMod E.p := fun i => linOf (H.coords.zcol E.p) H.barcode.length (Q.coords.zcol E.p i) with hx
  set xB : ℕ → ℕ → ZMod E.p := fun j => ∑ i ∈ range Q.dim, B0.zcol E.p j i • x i with hxB
  have hC1 : ∃ X, atE reps1' 1 = .ok X ∧ ChainIs E 0 1 deaths.length (fun k j =>
      (((if mask.getD j false then v j k else 0) - vB j k) + E.cechSum D 0 1 k (fun l => - u j l)) -
        E.fam 0 1 k (xB j)) X := by
    rcases s4 with ⟨hz, rfl⟩ | ⟨hz, hsub⟩
    · refine ⟨Cn', rfl, hCn.congr fun k _ j _ => ?_⟩
      have : xB j = 0 := Finset.sum_eq_zero fun i _ => by
        rw [show B0.zcol E.p j i = 0 from congrFun (anyRows_zv (p := E.p) hz j) i, zero_smul]
      rw [this, map_zero, sub_zero]
    · rcases hshape with ⟨-, hB⟩ | ⟨hQ, hB⟩
      · rw [hB] at hz; cases hz
      obtain ⟨X, hX, hXc⟩ := hreps0 hQ
      obtain ⟨b, Y, Y', t1, t2, t3, rfl⟩ := extSubtract_one hX hsub
      obtain rfl : Cn' = Y := Except.ok.inj t2
      have hsum := neg_sums hXc hB t1
      rw [← hdl] at hsum
      refine ⟨Y', rfl, (hCn.subtractBeta h.prime hsum t3).congr fun k _ j hj => ?_⟩
      rw [sub_eq_add_neg _ (E.fam 0 1 k (xB j)), hxB, fam_smulsum]
  obtain ⟨X, hX1, hX⟩ := hC1
  rw [hX1] at s5
  obtain rfl := Except.ok.inj s5
  obtain ⟨g1, g2, hg12, hX2⟩ := extRounds_two h (by omega) hpos0 he P0 F.reps hX s6
  obtain ⟨-, -, -, -, f5⟩ := firstPageLift_pieces h (by omega : 0 < E.columns.length) hpos0 he hX2.wf hX2.refs s7
  refine ⟨B1, B0, by rw [r11, s11], hB1, ?_, hlife1, hlife0, ?_⟩
  · rcases hshape with ⟨hQ, hB⟩ | hB
    · left; exact ⟨hQ, by rw [hB]⟩
    · right; exact hB
  intro j b hb hbR
  have hj : j < deaths.length := by rw [hdl, P1.liftH.dim]; exact (List.getElem?_eq_some_iff.1 hb).1
  have hxb : E.BornBy 0 1 (xB j) b.2 := BornBy.comb T.gens.born (hlife0 j b hb) _
  obtain ⟨hg1, hg2⟩ := hg12 j b.2 (hdj j b hb)
  have hg1b : E.BornBy 0 1 (g1 j) b.2 := hg1.born F.bornI
  have hg2b : E.BornBy 0 1 (linOf (H.coords.zcol E.p) H.barcode.length (g2 j)) b.2 := by
    rw [linOf_apply]
    refine bornBy_comb F.gens.born ?_ _
    intro r hr
    obtain ⟨γ, c1, c2⟩ := hg2
    rw [c2, Finset.sum_apply] at hr
    obtain ⟨i, -, hi⟩ := Finset.exists_ne_zero_of_sum_ne_zero hr
    rw [Pi.smul_apply, smul_eq_mul] at hi
    have hal : AliveBar I2.barcode i b.2 := by
      by_contra hn
      exact hi (by rw [c1 i hn, zero_mul])
    obtain ⟨c, hc, hc1, -⟩ := hal
    obtain ⟨c', hc', hle⟩ := T.bornI i r c hc (fun h0 => hi (by rw [h0, mul_zero]))
    exact ⟨c', hc', hle.trans hc1⟩
  set G : ℕ → ZMod E.p := g1 j + linOf (H.coords.zcol E.p) H.barcode.length (g2 j) with hG
  have hGb : E.BornBy 0 1 G b.2 := BornBy.add hg1b hg2b
  have hval : ∀ k < E.spx 0, (fun i => (C2'.val k j i : ZMod E.p)) =
      v j k - vB j k + E.cechSum D 0 1 k (fun l => - u j l) - E.fam 0 1 k (xB j) - E.fam 0 1 k G := by
    intro k hk
    rw [hX2.val k hk j hj, hmj j _ (hdj j b hb), decide_eq_true hbR, if_pos rfl]
  have hvBp : ∀ k < E.spx 0, E.PresentAt ρ 0 k 1 (vB j k) b.2 ∧
      E.bd 0 k 1 (vB j k) + E.cechSum D 0 0 k (fun l => E.fam 1 0 l (yB j)) = 0 := by
    intro k hk
    constructor
    · refine PresentAt.sum _ _ fun i hi => ?_
      by_cases h0 : B1.zcol E.p j i = 0
      · intro r hr
        exact absurd (by rw [h0, zero_smul]; rfl) hr
      have hal : AliveBar K.barcode i b.2 := by by_contra hn; exact h0 (hlife1 j b hb i hn)
      obtain ⟨c, hc, hc1, -⟩ := hal
      exact PresentAt.smul _ (PresentAt.mono hc1 (hlift i c hc k hk).1)
    · rw [hvB, hyB]
      dsimp only
      rw [cechSum_congr (c' := fun l => ∑ i ∈ range K.dim, B1.zcol E.p j i • E.fam 1 0 l (K.coords.zcol E.p i))
        (fun l _ => fam_smulsum _ _), cechSum_smulsum, map_sum, ← Finset.sum_add_distrib]
      refine Finset.sum_eq_zero fun i hi => ?_
      rw [map_smul, ← smul_add]
      have hi' : i < K.barcode.length := by rw [← P1.liftH.dim]; exact mem_range.1 hi
      rw [(hlift i _ (List.getElem?_eq_getElem hi') k hk).2]
      exact smul_zero _
  obtain ⟨-, q⟩ := f5 j b.2 (hdj j b hb) hbR
  obtain ⟨w, hw1, hw2⟩ := mid_image_cech h hlen (by omega) hR (hb0 1 (by omega)) hD hD' hM2 P (hg j b.2 (hdj j b hb))
  have ht0 : 0 ≤ b.2 := by
    have hlt := P1.wfH b (List.mem_of_getElem? hb)
    obtain ⟨c, hc, hcb⟩ := P.birth b (List.mem_of_getElem? hb)
    have hc0 : 0 ≤ c.1 ∧ 0 ≤ c.2 := by
      rcases List.mem_append.1 hc with hc | hc
      · have := (h.firstBars_lt (by omega) (by omega : 0 < E.rows) c hc).1
        rw [hb0 1 (by omega) c hc] at this ⊢
        exact ⟨le_rfl, this.le⟩
      · have := (h.firstBars_lt (by omega) (by omega : 0 < E.rows) c hc).1
        rw [hb0 0 (by omega) c hc] at this ⊢
        exact ⟨le_rfl, this.le⟩
    rcases hcb with e | e
    · exact (e ▸ hc0.1).trans hlt.le
    · exact (e ▸ hc0.2).trans hlt.le
  set f : ℕ → ℕ → ZMod E.p := fun k => v j k - vB j k + E.cechSum D 0 1 k (fun l => - u j l) -
    E.fam 0 1 k (xB j) - E.fam 0 1 k G with hf
  have hpres : ∀ k < E.spx 0, E.PresentAt ρ 0 k 1 (f k) b.2 ∧
      E.bd 0 k 1 (f k) = E.bd 0 k 1 (E.cechSum D 0 1 k w) := by
    intro k hk
    obtain ⟨l1, l2⟩ := hlift j b hb k hk
    obtain ⟨l3, l4⟩ := hvBp k hk
    have c1 := fam_cycle h (by omega : 0 < E.columns.length) he hxb hk
    have c2 := fam_cycle h (by omega : 0 < E.columns.length) he hGb hk
    have hcb : E.bd 0 k 1 (E.cechSum D 0 1 k (fun l => - u j l)) =
        E.cechSum D 0 0 k (fun l => E.fam 1 0 l (K.coords.zcol E.p j)) -
          E.cechSum D 0 0 k (fun l => E.fam 1 0 l (yB j)) + E.bd 0 k 1 (E.cechSum D 0 1 k w) := by
      have e0 : E.cechSum D 0 0 k (fun l => E.bd 1 l 1 (- u j l)) =
          - E.bd 0 k 1 (E.cechSum D 0 1 k (fun l => - u j l)) :=
        cechSum_bd h hD (by omega) (by omega : 0 < E.rows) hk (fun l => - u j l)
      have e1 : E.cechSum D 0 0 k (fun l => E.bd 1 l 1 (w l)) =
          - E.bd 0 k 1 (E.cechSum D 0 1 k w) := cechSum_bd h hD (by omega) (by omega : 0 < E.rows) hk w
      rw [← neg_eq_iff_eq_neg] at e0 e1
      rw [← e0, ← e1]
      have hneg : (fun l => E.bd 1 l 1 (- u j l)) = fun l => 0 - E.bd 1 l 1 (u j l) := by
        funext l; rw [map_neg, zero_sub]
      rw [hneg, cechSum_sub, cechSum_zero, zero_sub, neg_neg,
        ← cechSum_congr (fun l hl => (hub j b hb hbR l hl).2), cechSum_sub, cechSum_sub, hw2 k hk, sub_eq_add_neg]
    refine ⟨?_, ?_⟩
    · refine PresentAt.sub (PresentAt.sub (PresentAt.add (PresentAt.sub ?_ l3) ?_) c1.1) c2.1
      · exact PresentAt.mono (P1.wfH b (List.mem_of_getElem? hb)).le l1
      · exact PresentAt.cechSum fun l hl => PresentAt.neg (hub j b hb hbR l hl).1
    · rw [hf]
      dsimp only
      rw [map_sub, map_sub, map_add, map_sub, c1.2, c2.2, sub_zero, sub_zero, hcb,
        eq_neg_of_add_eq_zero_left l2, eq_neg_of_add_eq_zero_left l4]
      abel
  -- the sum of the pieces
  have hsum : E.glSum 1 f ∈ E.BG ρ N 1 b.2 := by
    refine sum_up_to_zero h C he hzero ht0 hw1 (fun k hk => (hpres k hk).2) fun k hk => ?_
    by_cases hno : E.NoCycles ρ 0 k 1
    · left
      obtain ⟨o, pts, ho, -⟩ := h.piece 0 (by omega) k hk
      have hc : E.bd 0 k 1 (f k - E.cechSum D 0 1 k w) = 0 := by
        rw [map_sub, (hpres k hk).2, sub_self]
      rw [bd_eq ho] at hc
      exact sub_eq_zero.1 (hno b.2 hbR _ ⟨⟨o, ho, hc⟩, PresentAt.sub (hpres k hk).1
        (PresentAt.mono ht0 (PresentAt.cechSum hw1))⟩)
    · right
      obtain ⟨q4, q5⟩ := q k hk fun hc => absurd hc hno
      rw [hval k hk, anyRows_zv s8, map_zero, add_zero] at q5
      exact ⟨_, q4, q5⟩
  have e1 : E.glSum 1 f = E.glSum 1 (v j) - E.glSum 1 (vB j) - E.whole 1 (xB j) - E.whole 1 G := by
    rw [hf, glSum_sub', glSum_sub', glSum_add', glSum_sub', glSum_cech h C he.le, add_zero, ← whole_eq, ← whole_eq]
  have e2 : E.glSum 1 (vB j) = ∑ i ∈ range K.barcode.length, B1.zcol E.p j i • E.glSum 1 (v i) := by
    have : vB j = ∑ i ∈ range K.barcode.length, B1.zcol E.p j i • v i := by
      funext k
      rw [hvB, ← P1.liftH.dim, Finset.sum_apply]
      rfl
    rw [this, map_sum]
    exact Finset.sum_congr rfl fun i _ => map_smul _ _ _
  have e3 : E.whole 1 (xB j) = ∑ i ∈ range Q.barcode.length, B0.zcol E.p j i • E.whole 1 (x i) := by
    rw [hxB]
    dsimp only
    rw [T.liftH.dim, map_sum]
    exact Finset.sum_congr rfl fun i _ => map_smul _ _ _
  rw [← e2, ← e3]
  have e4 : E.whole 1 G ∈ E.BG ρ N 1 b.2 := by
    rw [hG, map_add]
    exact Submodule.add_mem _ (whole_of_bounds h C he hM1 hbR hg1b (F.memI _ _ hg1)) (T.memI _ hbR _ hg2)
  have e5 : E.glSum 1 (v j) - (E.whole 1 (xB j) + E.glSum 1 (vB j)) =
      E.glSum 1 f + E.whole 1 G := by
    rw [e1]; abel
  rw [e5]
  exact Submodule.add_mem _ hsum e4

end

end Permaviss
