import Verif.Spec.Cech
import Verif.Lemmas.CechVal
import Verif.Props.LocalPH

/-! The local complexes of a cloud, in terms of the distances of the cloud. -/

namespace Permaviss

variable {α : Type} [LinearOrder α] [Zero α] {Pt : Type}

theorem foldr_max_le_iff {l : List α} {a t : α} : l.foldr max a ≤ t ↔ a ≤ t ∧ ∀ x ∈ l, x ≤ t := by
  induction l with
  | nil => simp
  | cons b l ih => simp [ih]; tauto

theorem foldr_max_lt_iff {l : List α} {a t : α} : l.foldr max a < t ↔ a < t ∧ ∀ x ∈ l, x < t := by
  induction l with
  | nil => simp
  | cons b l ih => simp [ih]; tauto

theorem mem_diam {d : Pt → Pt → α} {pt : ℕ → Pt} {s : List ℕ} {x : α} :
    x ∈ (s.flatMap fun u => (s.filter fun v => decide (u < v)).map fun v => d (pt v) (pt u)) ↔
      ∃ u ∈ s, ∃ v ∈ s, u < v ∧ d (pt v) (pt u) = x := by
  simp [List.mem_flatMap, and_assoc]

theorem diam_le_iff {d : Pt → Pt → α} {pt : ℕ → Pt} {s : List ℕ} {t : α} :
    diam d pt s ≤ t ↔ 0 ≤ t ∧ ∀ u ∈ s, ∀ v ∈ s, u < v → d (pt v) (pt u) ≤ t := by
  unfold diam
  rw [foldr_max_le_iff]
  refine and_congr_right fun _ => ⟨fun h u hu v hv huv => h _ (mem_diam.2 ⟨u, hu, v, hv, huv, rfl⟩), ?_⟩
  intro h x hx
  obtain ⟨u, hu, v, hv, huv, rfl⟩ := mem_diam.1 hx
  exact h u hu v hv huv

theorem diam_lt_iff {d : Pt → Pt → α} {pt : ℕ → Pt} {s : List ℕ} {t : α} :
    diam d pt s < t ↔ 0 < t ∧ ∀ u ∈ s, ∀ v ∈ s, u < v → d (pt v) (pt u) < t := by
  unfold diam
  rw [foldr_max_lt_iff]
  refine and_congr_right fun _ => ⟨fun h u hu v hv huv => h _ (mem_diam.2 ⟨u, hu, v, hv, huv, rfl⟩), ?_⟩
  intro h x hx
  obtain ⟨u, hu, v, hv, huv, rfl⟩ := mem_diam.1 hx
  exact h u hu v hv huv

theorem diam_nonneg (d : Pt → Pt → α) (pt : ℕ → Pt) (s : List ℕ) : 0 ≤ diam d pt s :=
  (diam_le_iff.1 le_rfl).1

theorem diam_of_isDiameter {d : Pt → Pt → α} (hd : ∀ a b, 0 ≤ d a b) {pt : ℕ → Pt} {s : List ℕ} {r : α}
    (h : IsDiameter (fun a b => d (pt a) (pt b)) s r) : r = diam d pt s := by
  obtain ⟨h1, u, hu, v, hv, huv, rfl⟩ := h
  refine le_antisymm ?_ (diam_le_iff.2 ⟨hd _ _, h1⟩)
  exact (diam_le_iff.1 le_rfl).2 u hu v hv huv

theorem diam_singleton (d : Pt → Pt → α) (pt : ℕ → Pt) (v : ℕ) : diam d pt [v] = 0 := by
  simp [diam]

theorem diam_subset {d : Pt → Pt → α} {pt : ℕ → Pt} {s t : List ℕ} (h : s ⊆ t) :
    diam d pt s ≤ diam d pt t :=
  diam_le_iff.2 ⟨diam_nonneg d pt t, fun u hu v hv huv =>
    (diam_le_iff.1 le_rfl).2 u (h hu) v (h hv) huv⟩

/-- Pairs of an increasing list. -/
theorem pairwise_iff_forall_lt {s : List ℕ} (hs : s.Pairwise (· < ·)) {R : ℕ → ℕ → Prop} :
    s.Pairwise R ↔ ∀ u ∈ s, ∀ v ∈ s, u < v → R u v := by
  constructor
  · intro h u hu v hv huv
    obtain ⟨a, ha, rfl⟩ := List.getElem_of_mem hu
    obtain ⟨b, hb, rfl⟩ := List.getElem_of_mem hv
    rcases Nat.lt_trichotomy a b with hab | hab | hab
    · exact List.pairwise_iff_getElem.1 h a b ha hb hab
    · subst hab; omega
    · have := List.pairwise_iff_getElem.1 hs b a hb ha hab
      omega
  · intro h
    exact hs.imp_of_mem fun {a b} ha hb hab => h a ha b hb hab

/-- The simplices of the Vietoris-Rips complex, vertices included. -/
theorem vr_mem {argsort : List α → List Nat} (ha : IsArgsort argsort) {Dist : List (List α)} {maxR : α}
    {maxDim : Int} {deg : ℕ} (hdeg : deg ≤ (vietorisRips argsort Dist maxR maxDim).simplices.length)
    (s : List ℕ) :
    s ∈ simplicesOf Dist.length (vietorisRips argsort Dist maxR maxDim).simplices deg ↔
      s.length = deg + 1 ∧ IsSmall (distAt Dist) Dist.length maxR s := by
  obtain ⟨-, -, hS⟩ := C16_vietoris_rips_simplices argsort ha Dist maxR maxDim
  cases deg with
  | zero =>
    simp only [simplicesOf, List.mem_map, List.mem_range]
    constructor
    · rintro ⟨v, hv, rfl⟩
      exact ⟨rfl, by simpa [IsSmall] using hv⟩
    · rintro ⟨h1, h2⟩
      obtain ⟨v, rfl⟩ := List.length_eq_one_iff.1 h1
      exact ⟨v, h2.1 v (by simp), rfl⟩
  | succ e =>
    simp only [simplicesOf]
    rw [List_getD_eq_getElem _ _ (by omega)]
    exact (hS e _ (List.getElem?_eq_getElem (by omega))).2 s

theorem IsDistTable.isPdist {pdist : List Pt → List (List α)} {d : Pt → Pt → α}
    (h : IsDistTable pdist d) : IsPdist pdist := by
  refine ⟨fun c _ => by rw [h.table]; simp, fun c _ row hr x hx => ?_⟩
  rw [h.table] at hr
  obtain ⟨a, -, rfl⟩ := List.mem_map.1 hr
  obtain ⟨b, -, rfl⟩ := List.mem_map.1 hx
  exact h.nonneg a b

theorem IsDistTable.distAt {pdist : List Pt → List (List α)} {d : Pt → Pt → α}
    (h : IsDistTable pdist d) (pt : ℕ → Pt) (pts : List ℕ) {a b : ℕ} (ha : a < pts.length)
    (hb : b < pts.length) :
    distAt (pdist (pts.map pt)) a b = d (pt (pts.getD a 0)) (pt (pts.getD b 0)) := by
  unfold Permaviss.distAt
  rw [h.table]
  have e1 : ((pts.map pt).map fun a => (pts.map pt).map (d a)).getD a [] =
      (pts.map pt).map (d (pt pts[a])) := by
    rw [getD_map_lt (by simpa using ha)]; simp
  rw [e1, List.map_map, getD_map_lt hb, List_getD_eq_getElem _ _ ha, List_getD_eq_getElem _ _ hb]
  rfl

variable {p : ℕ}

/-- The local persistent homology of the points `pts` of a cloud. -/
theorem local_piece (hp : p.Prime) {pdist : List Pt → List (List α)} {d : Pt → Pt → α}
    (hd : IsDistTable pdist d) {argsort : List α → List Nat} (ha : IsArgsort argsort) (rnd : α → α)
    (pt : ℕ → Pt) {pts : List ℕ} (hinc : pts.Pairwise (· < ·)) {maxR : α} (hmax : 0 < maxR)
    (maxDim : ℕ) :
    ∃ o, localPersistentHomology pdist argsort rnd (pts.map pt) maxR maxDim p = .ok o ∧
      PieceOK rnd p maxDim maxR (diam d pt) o pts ∧
      o.cpx.simplices.length = max maxDim 1 ∧ o.ph.hom.length = o.cpx.simplices.length + 1 ∧
      ∀ deg ≤ o.cpx.simplices.length, ∀ s, s ∈ o.glob pts deg ↔ s.length = deg + 1 ∧
        s.Pairwise (· < ·) ∧ (∀ v ∈ s, v ∈ pts) ∧ diam d pt s < maxR := by
  obtain ⟨Dist, D, out, h0, hlen, hpos, hD, F, hout, hol, hDm, hDl, h3⟩ :=
    local_run hp hd.isPdist ha rnd (pts.map pt) hmax maxDim
  rw [List.length_map] at hlen
  have hDist : Dist = pdist (pts.map pt) := by
    rw [← h0]
    split
    · next h =>
      have : pts.map pt = [] := List.length_eq_zero_iff.1 h
      rw [this, hd.table]; rfl
    · rfl
  have hdist : ∀ a < pts.length, ∀ b < pts.length, distAt Dist a b =
      d (pt (pts.getD a 0)) (pt (pts.getD b 0)) := fun a h1 b h2 => by
    rw [hDist]; exact hd.distAt pt pts h1 h2
  obtain ⟨hC, -⟩ := C18_vietoris_rips_filtration argsort ha Dist maxR maxDim hpos
  set V := vietorisRips argsort Dist maxR maxDim with hV
  have hverts : V.verts = pts.length := hlen
  have hl : V.simplices.length = max maxDim 1 := by
    have : ((D.length : ℕ) : Int) = max (maxDim : Int) 1 := hDm
    rw [hDl] at this
    omega
  have hsort : ∀ deg, ∀ s ∈ simplicesOf Dist.length V.simplices deg, s.length = deg + 1 ∧
      s.Pairwise (· < ·) ∧ ∀ v ∈ s, v < pts.length := by
    intro deg s hs
    obtain ⟨g1, g2, g3⟩ := simplicesOf_spec (n := Dist.length) hC hs
    exact ⟨g1, g2, fun v hv => hlen ▸ g3 v hv⟩
  have hdiam : ∀ s : List ℕ, s.Pairwise (· < ·) → (∀ v ∈ s, v < pts.length) → ∀ r,
      IsDiameter (distAt Dist) s r → r = diam d pt (s.map fun v => pts.getD v 0) := by
    rintro s hs hv r ⟨g1, u, hu, v, hv', huv, e⟩
    refine diam_of_isDiameter hd.nonneg ⟨?_, ?_⟩
    · intro u' hu' v' hv'' huv'
      obtain ⟨a, ha', rfl⟩ := List.mem_map.1 hu'
      obtain ⟨b, hb', rfl⟩ := List.mem_map.1 hv''
      change d _ _ ≤ r
      rw [← hdist b (hv b hb') a (hv a ha')]
      refine g1 a ha' b hb' ?_
      by_contra hc
      rcases Nat.lt_or_ge b a with hc' | hc'
      · have := getD_strictMono hinc hc' (hv a ha'); omega
      · have : a = b := by omega
        subst this; omega
    · refine ⟨_, List.mem_map.2 ⟨u, hu, rfl⟩, _, List.mem_map.2 ⟨v, hv', rfl⟩,
        getD_strictMono hinc huv (hv v hv'), ?_⟩
      change d _ _ = r
      rw [← hdist v (hv v hv') u (hv u hu)]
      exact e
  refine ⟨_, h3, ?_, hl, by rw [hol, hDl], ?_⟩
  · refine ⟨hinc, hverts, hC, by rw [hl]; exact le_max_left _ _, ?_, ⟨_, hD⟩, F, hout, ?_⟩
    · change 0 < V.simplices.length
      rw [hl]; omega
    · intro deg _
      unfold LocalOut.glob
      change V.allRads.getD deg [] = List.map (diam d pt) (List.map _ (simplicesOf Dist.length V.simplices deg))
      apply List.ext_getElem?
      intro i
      by_cases hi : i < (simplicesOf Dist.length V.simplices deg).length
      · obtain ⟨r, hr, hr0, hr1⟩ := vr_radius (maxR := maxR) (maxDim := maxDim) ha hi
        rw [hr, List.map_map, List.getElem?_map, List.getElem?_eq_getElem hi]
        simp only [Option.map_some, Function.comp, Option.some.injEq]
        rw [List_getD_eq_getElem _ _ hi] at hr1
        obtain ⟨g1, g2, g3⟩ := hsort deg _ (List.getElem_mem hi)
        by_cases he : deg = 0
        · rw [hr0 he]
          subst he
          obtain ⟨v, hv⟩ := List.length_eq_one_iff.1 g1
          rw [hv]
          exact (diam_singleton d pt _).symm
        · exact hdiam _ g2 g3 r (hr1 he)
      · rw [List.getElem?_eq_none (by rw [vr_rads_length ha]; exact not_lt.1 hi), List.getElem?_eq_none (by
          simp only [List.length_map]; omega)]
  · intro deg hdeg s
    unfold LocalOut.glob
    change s ∈ List.map _ (simplicesOf Dist.length V.simplices deg) ↔ _
    rw [List.mem_map]
    constructor
    · rintro ⟨s', hs', rfl⟩
      obtain ⟨g1, g2, g3⟩ := hsort deg s' hs'
      obtain ⟨-, -, hsm⟩ := (vr_mem (Dist := Dist) (maxR := maxR) (maxDim := (maxDim : ℤ)) ha hdeg s').1 hs'
      refine ⟨by simpa using g1, map_getD_pairwise hinc g2 g3, ?_, ?_⟩
      · intro v hv
        obtain ⟨a, ha', rfl⟩ := List.mem_map.1 hv
        exact getD_mem' (g3 a ha')
      · rw [diam_lt_iff]
        refine ⟨hmax, ?_⟩
        intro u' hu' v' hv'' huv'
        obtain ⟨a, ha', rfl⟩ := List.mem_map.1 hu'
        obtain ⟨b, hb', rfl⟩ := List.mem_map.1 hv''
        rw [← hdist b (g3 b hb') a (g3 a ha')]
        refine ((pairwise_iff_forall_lt g2).1 hsm a ha' b hb' ?_).2
        by_contra hc
        rcases Nat.lt_or_ge b a with hc' | hc'
        · have := getD_strictMono hinc hc' (g3 a ha'); omega
        · have : a = b := by omega
          subst this; omega
    · rintro ⟨h1, h2, h4, h5⟩
      rw [diam_lt_iff] at h5
      have hidx : ∀ v ∈ s, pts.idxOf v < pts.length ∧ pts.getD (pts.idxOf v) 0 = v := by
        intro v hv
        have := List.idxOf_lt_length_of_mem (h4 v hv)
        exact ⟨this, by rw [List_getD_eq_getElem _ _ this, List.getElem_idxOf]⟩
      refine ⟨s.map fun v => pts.idxOf v, ?_, ?_⟩
      · refine (vr_mem (Dist := Dist) (maxR := maxR) (maxDim := (maxDim : ℤ)) ha hdeg _).2 ⟨by simpa using h1, ?_, ?_⟩
        · intro v hv
          obtain ⟨a, ha', rfl⟩ := List.mem_map.1 hv
          rw [hlen]; exact (hidx a ha').1
        · rw [List.pairwise_map]
          refine h2.imp_of_mem fun {a b} ha' hb' hab => ?_
          obtain ⟨a1, a2⟩ := hidx a ha'
          obtain ⟨b1, b2⟩ := hidx b hb'
          refine ⟨?_, ?_⟩
          · by_contra hc
            rcases Nat.lt_or_ge (pts.idxOf b) (pts.idxOf a) with hc' | hc'
            · have := getD_strictMono hinc hc' a1
              rw [a2, b2] at this; omega
            · have e : pts.idxOf a = pts.idxOf b := by omega
              rw [e, b2] at a2; omega
          · rw [hdist _ b1 _ a1, a2, b2]
            exact h5.2 a ha' b hb' hab
      · rw [List.map_map]
        conv_rhs => rw [← List.map_id s]
        exact List.map_congr_left fun v hv => (hidx v hv).2

end Permaviss
