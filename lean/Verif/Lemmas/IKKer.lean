import Verif.Lemmas.IKHist

/-!
# `image_kernel`: the loop over kernel generators
-/

namespace Permaviss

open Finset

variable {α : Type} [LinearOrder α]

theorem act_old {bars : List (α × α)} {i : ℕ} {rad : α} (h : ActBy (· ≤ rad) bars i)
    (hb : BornBy (· < rad) bars i) : ActBy (· < rad) bars i := by
  obtain ⟨b, h1, -, h3⟩ := h
  obtain ⟨b', h1', h2'⟩ := hb
  rw [h1] at h1'; cases h1'
  exact ⟨b, h1, h2', fun h => h3 (le_of_lt h)⟩

theorem act_new {bars : List (α × α)} {i : ℕ} {rad : α} (h : ActBy (· < rad) bars i)
    (hd : ¬ ∃ b, bars[i]? = some b ∧ b.2 = rad) : ActBy (· ≤ rad) bars i := by
  obtain ⟨b, h1, h2, h3⟩ := h
  refine ⟨b, h1, le_of_lt h2, fun h => hd ⟨b, h1, le_antisymm h (not_lt.1 h3)⟩⟩

theorem BornBy.le {bars : List (α × α)} {i : ℕ} {rad : α} (h : BornBy (· < rad) bars i) :
    BornBy (· ≤ rad) bars i := by
  obtain ⟨b, h1, h2⟩ := h; exact ⟨b, h1, le_of_lt h2⟩

theorem getD_set {β : Type*} (l : List β) (i j : ℕ) (x d : β) (h : i < l.length) :
    (l.set i x).getD j d = if j = i then x else l.getD j d := by
  simp only [List.getD_eq_getElem?_getD, List.getElem?_set]
  by_cases hij : i = j
  · subst hij; simp [h]
  · rw [if_neg hij, if_neg (fun e => hij e.symm)]

/-- The lists of positions read at radius `rad`. -/
structure Lists (E : IKEnv α) (rad : α) (aA aB dA bA dB : List ℕ) : Prop where
  mA : ∀ i, i ∈ aA ↔ ActBy (· ≤ rad) E.A.barcode i
  sA : aA.Pairwise (· < ·)
  mB : ∀ i, i ∈ aB ↔ ActBy (· ≤ rad) E.B.barcode i
  sB : aB.Pairwise (· < ·)
  mdA : ∀ i, i ∈ dA ↔ ∃ b, E.A.barcode[i]? = some b ∧ b.2 = rad
  mbA : ∀ i, i ∈ bA ↔ ∃ b, E.A.barcode[i]? = some b ∧ b.1 = rad
  mdB : ∀ i, i ∈ dB ↔ ∃ b, E.B.barcode[i]? = some b ∧ b.2 = rad

/-- The invariant of the loop over kernel generators; `s.2` is `new_pivots`. -/
structure KMid (E : IKEnv α) (rad : α) (st0 : IK α) (c : ℕ) (s : IK α × List Int) : Prop where
  core : Core E (· < rad) (· ≤ rad) (· < rad) c 0 s.1
  hist : Hist E s.1 (· < rad)
  N : ∀ q ∈ s.2, ∃ i : ℕ, q = i ∧ ∃ k, k < c ∧ s.1.rho k = i
  N2 : ∀ k, k < c → ∀ i : ℕ, s.1.rho k = i → (i : Int) ∈ s.2 ∨ st0.rho k = i
  un : ∀ k, c ≤ k → s.1.rho k = st0.rho k
  oinj : ∀ k k', ∀ i : ℕ, st0.rho k = i → st0.rho k' = i → k = k'
  mono : E.MonoDeath → s.2 = []

variable {E : IKEnv α} {rad : α} {aA aB dA bA dB : List ℕ} {st0 : IK α} {c : ℕ}
  {s : IK α × List Int}

theorem Core.rho_lt {P0 P1 PK : α → Prop} {c d : ℕ} {st : IK α} (h : Core E P0 P1 PK c d st) {k : ℕ}
    (hk : st.rho k ≠ -2) : k < st.kdim := by
  by_contra hc
  exact hk (h.kge k (by omega))

theorem IK.piv_lt {st : IK α} {j : ℕ} (hk : st.piv j ≠ -2) : j < st.pivIm.length := by
  by_contra hc
  apply hk
  unfold IK.piv
  rw [List.getD_eq_getElem?_getD, List.getElem?_eq_none (by omega)]; rfl

theorem Core.piv_lt {P0 P1 PK : α → Prop} {c d : ℕ} {st : IK α} (h : Core E P0 P1 PK c d st) {j : ℕ}
    (hk : st.piv j ≠ -2) : j < E.A.dim := by
  have := IK.piv_lt hk
  rwa [h.sh.pivIm] at this

/-- Vectors in the kernel before `rad` are in the kernel at `rad`. -/
theorem EnvOK.ker_le (hE : EnvOK E) {x : ℕ → ZMod E.p}
    (hx : ∀ i, x i ≠ 0 → BornBy (· < rad) E.A.barcode i) (h : E.mor (· < rad) x = 0) :
    E.mor (· ≤ rad) x = 0 := by
  funext r
  by_cases hr : ActBy (· ≤ rad) E.B.barcode r
  · rw [hE.mor_eq (down_le rad) (fun i hi => (hx i hi).le) r hr]
    by_contra hc
    have hb := hE.ev_supp (down_lt rad) hx r hc
    have := hE.mor_eq (down_lt rad) hx r (act_old hr hb)
    rw [h] at this
    exact hc this.symm
  · rw [IKEnv.mor_apply, restr_apply_neg hr]; rfl

/-- Nothing happens. -/
theorem KMid.skip (hL : Lists E rad aA aB dA bA dB) (h : KMid E rad st0 c s)
    (hdA : ∀ i : ℕ, st0.rho c = i → i ∉ dA) (hN : st0.rho c ∉ s.2) : KMid E rad st0 (c + 1) s := by
  have hc := h.core
  have hrc : s.1.rho c = st0.rho c := h.un c le_rfl
  have hcut : ∀ k, k ≠ c → cutAt (· < rad) (· ≤ rad) (c + 1) k = cutAt (· < rad) (· ≤ rad) c k := by
    intro k hk
    unfold cutAt
    by_cases h1 : k < c
    · rw [if_pos h1, if_pos (by omega)]
    · rw [if_neg h1, if_neg (by omega)]
  refine ⟨{ hc with kalive := ?_, kinjLo := ?_, kinjHi := ?_ }, h.hist, ?_, ?_, ?_, h.oinj, h.mono⟩
  · intro k i hk
    by_cases hkc : k = c
    · subst hkc
      rw [cutAt_lo (by omega)]
      have ha := hc.kalive k i hk
      rw [cutAt_hi le_rfl] at ha
      obtain ⟨h1, h2, h3⟩ := ha
      have hkd : k < s.1.kdim := hc.rho_lt (by rw [hk]; omega)
      refine ⟨act_new h1 fun hb => hdA i (hrc ▸ hk) ((hL.mdA i).2 hb), h2, fun l hl hA => ?_⟩
      by_contra hne
      exact hne (h3 l hl (act_old hA (hc.ksupp k hkd l hne)))
    · rw [hcut k hkc]; exact hc.kalive k i hk
  · have key : ∀ k, k < c → ∀ i : ℕ, s.1.rho k = i → s.1.rho c = i → False := by
      intro k hk i h1 h2
      rcases h.N2 k hk i h1 with h3 | h3
      · rw [← h2, hrc] at h3; exact hN h3
      · have := h.oinj k c i h3 (hrc ▸ h2); omega
    intro k k' hk hk' i h1 h2
    by_cases hkc : k = c
    · by_cases hkc' : k' = c
      · omega
      · exact (key k' (by omega) i h2 (hkc ▸ h1)).elim
    · by_cases hkc' : k' = c
      · exact (key k (by omega) i h1 (hkc' ▸ h2)).elim
      · exact hc.kinjLo k k' (by omega) (by omega) i h1 h2
  · intro k k' hk hk'
    exact hc.kinjHi k k' (by omega) (by omega)
  · intro q hq
    obtain ⟨i, h1, k, h2, h3⟩ := h.N q hq
    exact ⟨i, h1, k, by omega, h3⟩
  · intro k hk i hi
    by_cases hkc : k = c
    · subst hkc; right; rw [← hrc]; exact hi
    · exact h.N2 k (by omega) i hi
  · intro k hk; exact h.un k (by omega)

/-- What the reduction of kernel generator `c` does. -/
structure KRed (E : IKEnv α) (rad : α) (s : IK α) (c : ℕ) (K : Mat) (a : ℕ → ZMod E.p) (q : Int) :
    Prop where
  ok : MatOK E.p E.A.dim E.A.dim K
  other : ∀ j, j ≠ c → K.col j = s.ker.col j
  supp : ∀ i, a i ≠ 0 → i < c ∧ i < s.kdim ∧ s.rho i ≠ -1
  eq : zv E.p (K.col c) = E.Kc s c + ∑ i ∈ range c, a i • E.Kc s i
  res : (q = -1 ∧ ∀ i, ActBy (· ≤ rad) E.A.barcode i → zv E.p (K.col c) i = 0) ∨
    ∃ i : ℕ, q = i ∧ IsPivOn (ActBy (· ≤ rad) E.A.barcode) (zv E.p (K.col c)) i ∧
      ∀ k, k < c → s.rho k ≠ i

theorem KMid.reduce (hE : EnvOK E) (hL : Lists E rad aA aB dA bA dB) (h : KMid E rad st0 c s)
    (hcn : c < E.A.dim) :
    ∃ K T a q, pivotCheckReduce E.p s.1.ker aA c (s.1.pivKer.take c) none = .ok (K, T, q) ∧
      KRed E rad s.1 c K a q := by
  have hc := h.core
  have hlen : (s.1.pivKer.take c).length = c := by
    rw [List.length_take, hc.sh.pivKer]; omega
  have hget : ∀ i, i < c → (s.1.pivKer.take c)[i]? = some (s.1.rho i) := by
    intro i hi
    rw [List.getElem?_take, if_pos hi]
    unfold IK.rho
    rw [List_getD_eq_getElem _ _ (by rw [hc.sh.pivKer]; omega)]
    exact List.getElem?_eq_getElem _
  have haA : (fun r => r ∈ aA) = ActBy (· ≤ rad) E.A.barcode := funext fun r => propext (hL.mA r)
  obtain ⟨K, T, q, a, h1, h2, -, -⟩ := pivotCheckReduce_spec hE.hp (m := E.A.dim) (n := E.A.dim)
    (nT := E.A.dim) (col := c) (pivPrev := s.1.pivKer.take c) (T := none) hL.sA
    (fun r hr => by rw [hE.lenA]; exact ((hL.mA r).1 hr).lt) hcn hcn (by omega) hc.sh.ker
    (fun _ h => by cases h) (by
      intro i r hi hr
      have hic : i < c := by
        have := (List.getElem?_eq_some_iff.1 hi).1
        omega
      rw [hget i hic] at hi
      have := hc.kalive i r (by injection hi)
      rw [cutAt_lo hic] at this
      rw [haA]; exact this)
  refine ⟨K, T, a, q, h1, h2.ok, h2.other, ?_, ?_, ?_⟩
  · intro i hi
    obtain ⟨h3, r, h4, h5⟩ := h2.supp i hi
    rw [hlen] at h3
    rw [hget i h3] at h5
    have h6 : s.1.rho i = r := by injection h5
    exact ⟨h3, hc.rho_lt (by rw [h6]; omega), by rw [h6]; omega⟩
  · rw [h2.eq, hlen]; rfl
  · rcases h2.res with ⟨h3, h4⟩ | ⟨r, h3, h4, h5⟩
    · exact Or.inl ⟨h3, fun i hi => h4 i ((hL.mA i).2 hi)⟩
    · right
      refine ⟨r, h3, ?_, ?_⟩
      · rw [haA] at h4; exact h4
      · intro k hk hkr
        apply h5
        have := List.mem_of_getElem? (hget k hk)
        rwa [hkr] at this

/-- The state after writing the reduced kernel column. -/
def IK.setKer (st : IK α) (K : Mat) (c : ℕ) (q : Int) : IK α :=
  { st with ker := K, pivKer := st.pivKer.set c q }

theorem rho_setKer {st : IK α} {K : Mat} {q : Int} (hc : c < st.pivKer.length) (k : ℕ) :
    (st.setKer K c q).rho k = if k = c then q else st.rho k := by
  unfold IK.rho IK.setKer
  exact getD_set _ _ _ _ _ hc

theorem Kc_setKer_ne {st : IK α} {K : Mat} {a : ℕ → ZMod E.p} {q : Int}
    (h : KRed E rad st c K a q) {k : ℕ} (hk : k ≠ c) :
    E.Kc (st.setKer K c q) k = E.Kc st k := by
  unfold IKEnv.Kc IK.setKer
  dsimp only
  rw [h.other k hk]

theorem Kc_setKer {st : IK α} {K : Mat} {a : ℕ → ZMod E.p} {q : Int}
    (h : KRed E rad st c K a q) :
    E.Kc (st.setKer K c q) c = E.Kc st c + ∑ i ∈ range c, a i • E.Kc st i := h.eq

theorem KRed.born {K : Mat} {a : ℕ → ZMod E.p} {q : Int}
    (h : KRed E rad s.1 c K a q) (hm : KMid E rad st0 c s) (hckd : c < s.1.kdim) (i : ℕ)
    (hi : zv E.p (K.col c) i ≠ 0) : BornBy (· < rad) E.A.barcode i := by
  by_contra hb
  apply hi
  rw [h.eq, Pi.add_apply, Finset.sum_apply]
  have h1 : E.Kc s.1 c i = 0 := by
    by_contra hne; exact hb (hm.core.ksupp c hckd i hne)
  rw [h1, zero_add]
  refine Finset.sum_eq_zero fun k _ => ?_
  rw [Pi.smul_apply, smul_eq_mul]
  by_cases hak : a k = 0
  · rw [hak, zero_mul]
  · have : E.Kc s.1 k i = 0 := by
      by_contra hne; exact hb (hm.core.ksupp k (h.supp k hak).2.1 i hne)
    rw [this, mul_zero]

theorem KRed.ker {K : Mat} {a : ℕ → ZMod E.p} {q : Int}
    (h : KRed E rad s.1 c K a q) (hm : KMid E rad st0 c s) (hckd : c < s.1.kdim) :
    E.mor (· < rad) (zv E.p (K.col c)) = 0 := by
  rw [h.eq, map_add, hm.core.kker c hckd, map_sum, zero_add]
  refine Finset.sum_eq_zero fun k _ => ?_
  rw [map_smul]
  by_cases hak : a k = 0
  · rw [hak, zero_smul]
  · rw [hm.core.kker k (h.supp k hak).2.1, smul_zero]

theorem KRed.bornAt {K : Mat} {a : ℕ → ZMod E.p} {q : Int}
    (h : KRed E rad s.1 c K a q) (hm : KMid E rad st0 c s) (hckd : c < s.1.kdim) {b : α × α}
    (hb : s.1.kerBar[c]? = some b) (i : ℕ)
    (hi : zv E.p (K.col c) i ≠ 0) : BornBy (· ≤ b.1) E.A.barcode i := by
  have hc := hm.core
  by_contra hnb
  apply hi
  rw [h.eq, Pi.add_apply, Finset.sum_apply]
  have h1 : E.Kc s.1 c i = 0 := by
    by_contra hne; exact hnb (hc.kbs c hckd b hb i hne)
  rw [h1, zero_add]
  refine Finset.sum_eq_zero fun k hk => ?_
  rw [Pi.smul_apply, smul_eq_mul]
  by_cases hak : a k = 0
  · rw [hak, zero_mul]
  · have hkc := mem_range.1 hk
    have hkl : k < s.1.kerBar.length := by
      have := (List.getElem?_eq_some_iff.1 hb).1; omega
    have hbk := List.getElem?_eq_getElem hkl
    have : E.Kc s.1 k i = 0 := by
      by_contra hne
      obtain ⟨b', h3, h4⟩ := hc.kbs k (h.supp k hak).2.1 _ hbk i hne
      exact hnb ⟨b', h3, le_trans h4 (hc.kbmono k c hkc.le hckd _ _ hbk hb)⟩
    rw [this, mul_zero]

/-- After a reduction of a triggered kernel column, a bar which was a pivot of it and is still
active is a pivot of an earlier column. -/
theorem KMid.cover_trig (hL : Lists E rad aA aB dA bA dB) (h : KMid E rad st0 c s) {i : ℕ}
    (htr : i ∈ dA ∨ (i : Int) ∈ s.2) (hi : ActBy (· ≤ rad) E.A.barcode i) :
    ∃ k, k < c ∧ s.1.rho k = i := by
  rcases htr with h1 | h1
  · exfalso
    obtain ⟨b, hb, hbr⟩ := (hL.mdA i).1 h1
    obtain ⟨b', hb', -, h3⟩ := hi
    rw [hb] at hb'; cases hb'
    exact h3 (le_of_eq hbr)
  · obtain ⟨i', h2, k, h3, h4⟩ := h.N _ h1
    have : i = i' := by exact_mod_cast h2
    subst this
    exact ⟨k, h3, h4⟩

/-- The kernel part of the core after a reduction, common to both outcomes.  `st'` is any state with
the kernel part of `s.setKer K c q`. -/
theorem cut_succ_ne {P0 P1 : α → Prop} {c k : ℕ} (hk : k ≠ c) :
    cutAt P0 P1 (c + 1) k = cutAt P0 P1 c k := by
  unfold cutAt
  by_cases h1 : k < c
  · rw [if_pos h1, if_pos (by omega)]
  · rw [if_neg h1, if_neg (by omega)]

theorem getElem?_set' {β : Type*} (l : List β) (i j : ℕ) (x : β) :
    (l.set i x)[j]? = if j = i then (l[i]?).map (fun _ => x) else l[j]? := by
  rw [List.getElem?_set]
  by_cases hij : i = j
  · subst hij
    rw [if_pos rfl, if_pos rfl]
    by_cases h : i < l.length
    · rw [if_pos h, List.getElem?_eq_getElem h]; rfl
    · rw [if_neg h, List.getElem?_eq_none (by omega)]; rfl
  · rw [if_neg hij, if_neg (fun e => hij e.symm)]

/-- The kernel generator dies. -/
theorem KMid.die (hE : EnvOK E) (hL : Lists E rad aA aB dA bA dB) (h : KMid E rad st0 c s)
    (hcn : c < E.A.dim) {i0 : ℕ} (hi0 : st0.rho c = i0) (htr : i0 ∈ dA ∨ (i0 : Int) ∈ s.2)
    {K : Mat} {a : ℕ → ZMod E.p} (hr : KRed E rad s.1 c K a (-1)) :
    KMid E rad st0 (c + 1) ({ s.1 with
          ker := K
          pivKer := s.1.pivKer.set c (-1)
          kerBar := s.1.kerBar.set c ((s.1.kerBar.getD c (rad, rad)).1, rad) }, s.2) := by
  have hc := h.core
  have hrc : s.1.rho c = i0 := (h.un c le_rfl).trans hi0
  have hckd : c < s.1.kdim := hc.rho_lt (by rw [hrc]; omega)
  have hpl : c < s.1.pivKer.length := by rw [hc.sh.pivKer]; exact hcn
  have hkl : c < s.1.kerBar.length := by rw [hc.sh.kerBar]; exact hcn
  set st' : IK α := { s.1 with
          ker := K
          pivKer := s.1.pivKer.set c (-1)
          kerBar := s.1.kerBar.set c ((s.1.kerBar.getD c (rad, rad)).1, rad) } with hst'
  have hrho : ∀ k, st'.rho k = if k = c then -1 else s.1.rho k := fun k => rho_setKer (K := K) hpl k
  have hrne : ∀ k, k ≠ c → st'.rho k = s.1.rho k := fun k hk => by rw [hrho, if_neg hk]
  have hrcc : st'.rho c = -1 := by rw [hrho, if_pos rfl]
  have hKne : ∀ k, k ≠ c → E.Kc st' k = E.Kc s.1 k := fun k hk => Kc_setKer_ne hr hk
  have hKc : E.Kc st' c = zv E.p (K.col c) := rfl
  have hbar : ∀ k, st'.kerBar[k]? = if k = c then (s.1.kerBar[c]?).map (fun b => (b.1, rad))
      else s.1.kerBar[k]? := by
    intro k
    rw [hst', getElem?_set']
    by_cases hk : k = c
    · rw [if_pos hk, if_pos hk, List_getD_eq_getElem _ _ hkl, List.getElem?_eq_getElem hkl]; rfl
    · rw [if_neg hk, if_neg hk]
  have hnat : ∀ k, ∀ i : ℕ, st'.rho k = i → k ≠ c ∧ s.1.rho k = i := by
    intro k i hk
    have : k ≠ c := by rintro rfl; rw [hrcc] at hk; omega
    exact ⟨this, (hrne k this) ▸ hk⟩
  have hzero : ∀ i, ActBy (· ≤ rad) E.A.barcode i → zv E.p (K.col c) i = 0 := by
    rcases hr.res with ⟨-, h1⟩ | ⟨i, h1, -⟩
    · exact h1
    · omega
  have hbar1 : ∀ k b, st'.kerBar[k]? = some b → ∃ b0, s.1.kerBar[k]? = some b0 ∧ b.1 = b0.1 ∧
      (k ≠ c → b = b0) ∧ (k = c → b.2 = rad) := by
    intro k b hb
    rw [hbar] at hb
    by_cases hk : k = c
    · subst hk
      rw [if_pos rfl, Option.map_eq_some_iff] at hb
      obtain ⟨b0, h1, rfl⟩ := hb
      exact ⟨b0, h1, rfl, fun h => absurd rfl h, fun _ => rfl⟩
    · rw [if_neg hk] at hb
      exact ⟨b, hb, rfl, fun _ => rfl, fun h => absurd h hk⟩
  refine ⟨{
    sh := ⟨hc.sh.im, hc.sh.T, hr.ok, hc.sh.pivIm, hc.sh.imDeath, by simp [hst', hc.sh.pivKer],
      by simp [hst', hc.sh.kerBar], hc.sh.kdim⟩
    unborn := hc.unborn
    pcase := hc.pcase
    alive := hc.alive
    injLo := hc.injLo
    injHi := hc.injHi
    dead := hc.dead
    g1 := hc.g1
    g2 := hc.g2
    gm := hc.gm
    kcase := ?_
    kge := ?_
    kalive := ?_
    kinjLo := ?_
    kinjHi := ?_
    kdead := ?_
    ksupp := ?_
    kker := ?_
    cover := ?_
    disj := ?_
    upA := hc.upA
    kdle := hc.kdle
    kb := ?_
    kbmono := ?_
    kbs := ?_
    db := hc.db
    kpiv := ?_ }, ?_, ?_, ?_, ?_, h.oinj, h.mono⟩
  · intro k hk
    by_cases hkc : k = c
    · left; rw [hkc, hrcc]
    · rw [hrne k hkc]; exact hc.kcase k hk
  · intro k hk
    have : s.1.kdim ≤ k := hk
    rw [hrne k (by omega)]; exact hc.kge k hk
  · intro k i hk
    obtain ⟨h1, h2⟩ := hnat k i hk
    rw [cut_succ_ne h1, hKne k h1]; exact hc.kalive k i h2
  · intro k k' hk hk' i h1 h2
    obtain ⟨h3, h4⟩ := hnat k i h1
    obtain ⟨h5, h6⟩ := hnat k' i h2
    exact hc.kinjLo k k' (by omega) (by omega) i h4 h6
  · intro k k' hk hk' i h1 h2
    obtain ⟨h3, h4⟩ := hnat k i h1
    obtain ⟨h5, h6⟩ := hnat k' i h2
    exact hc.kinjHi k k' (by omega) (by omega) i h4 h6
  · intro k hk hk1
    by_cases hkc : k = c
    · rw [hkc, hKc]; exact hzero
    · rw [hKne k hkc]; exact hc.kdead k hk (hrne k hkc ▸ hk1)
  · intro k hk
    by_cases hkc : k = c
    · rw [hkc, hKc]; exact hr.born h hckd
    · rw [hKne k hkc]; exact hc.ksupp k hk
  · intro k hk
    by_cases hkc : k = c
    · rw [hkc, hKc]; exact hr.ker h hckd
    · rw [hKne k hkc]; exact hc.kker k hk
  · intro i hi hb
    rcases hc.cover i hi hb with h1 | ⟨k, h1, h2⟩
    · exact Or.inl h1
    · right
      by_cases hkc : k = c
      · have : i = i0 := by rw [hkc, hrc] at h2; exact_mod_cast h2.symm
        subst this
        obtain ⟨k', h3, h4⟩ := h.cover_trig hL htr hi
        refine ⟨k', ?_, by rw [hrne k' (by omega)]; exact h4⟩
        exact hc.rho_lt (by rw [h4]; omega)
      · exact ⟨k, h1, by rw [hrne k hkc]; exact h2⟩
  · intro i r hi k hk
    obtain ⟨h1, h2⟩ := hnat k i hk
    exact hc.disj i r hi k h2
  · intro k hk b hb
    obtain ⟨b0, h1, h2, h3, h4⟩ := hbar1 k b hb
    by_cases hkc : k = c
    · refine ⟨?_, fun _ => le_of_eq (h4 hkc)⟩
      rw [h2]; exact (hc.kb k hk b0 h1).1
    · rw [h3 hkc, hrne k hkc]; exact hc.kb k hk b0 h1
  · intro k k' hkk hk' b b' hb hb'
    obtain ⟨b0, h1, h2, -⟩ := hbar1 k b hb
    obtain ⟨b0', h1', h2', -⟩ := hbar1 k' b' hb'
    rw [h2, h2']
    exact hc.kbmono k k' hkk hk' b0 b0' h1 h1'
  · intro k hk b hb i hi
    obtain ⟨b0, h1, h2, -⟩ := hbar1 k b hb
    rw [h2]
    by_cases hkc : k = c
    · subst hkc
      exact hr.bornAt h hckd h1 i hi
    · rw [hKne k hkc] at hi
      exact hc.kbs k hk b0 h1 i hi
  · intro k i hk
    exact hc.kpiv k i (hnat k i hk).2
  · intro t ht
    obtain ⟨U, W, h1, h2, h3⟩ := h.hist t ht
    refine ⟨U, W, ⟨h1.act, h1.rank, h1.kerv, h1.alive, h1.dead, h1.deadMono⟩, ?_, h3⟩
    refine HistKer.update hE.hp ht h2 c a rfl (by rw [hrc]; omega) ?_ hr.eq ?_ (Or.inr ?_) hc.kbmono
      (by rw [hc.sh.kerBar]; exact hc.sh.kdim)
    · intro k hk
      exact ⟨hrne k hk, hKne k hk, by rw [hbar, if_neg hk]⟩
    · intro i hi _; exact (hr.supp i hi).2
    · rw [hbar, if_pos rfl]
  · intro q hq
    obtain ⟨i, h1, k, h2, h3⟩ := h.N q hq
    exact ⟨i, h1, k, by omega, by rw [hrne k (by omega)]; exact h3⟩
  · intro k hk i hi
    obtain ⟨h1, h2⟩ := hnat k i hi
    exact h.N2 k (by omega) i h2
  · intro k hk
    rw [hrne k (by omega)]; exact h.un k (by omega)

/-- The kernel generator changes its pivot and kills an image generator (or not). -/
theorem KMid.hit (hE : EnvOK E) (hL : Lists E rad aA aB dA bA dB) (h : KMid E rad st0 c s)
    (hcn : c < E.A.dim) {i0 : ℕ} (hi0 : st0.rho c = i0) (htr : i0 ∈ dA ∨ (i0 : Int) ∈ s.2)
    {K : Mat} {a : ℕ → ZMod E.p} {i : ℕ} (hr : KRed E rad s.1 c K a i) (hmono : ¬ E.MonoDeath) :
    ∃ st', kerHit E rad aA aB (K.col c) i
        { s.1 with ker := K, pivKer := s.1.pivKer.set c (i : Int) } = .ok st' ∧
      KMid E rad st0 (c + 1) (st', s.2 ++ [(i : Int)]) := by
  classical
  have hp0 : 0 < E.p := hE.hp.pos
  have hc := h.core
  have hrc : s.1.rho c = i0 := (h.un c le_rfl).trans hi0
  have hckd : c < s.1.kdim := hc.rho_lt (by rw [hrc]; omega)
  have hpl : c < s.1.pivKer.length := by rw [hc.sh.pivKer]; exact hcn
  obtain ⟨hpiv, hnew⟩ : IsPivOn (ActBy (· ≤ rad) E.A.barcode) (zv E.p (K.col c)) i ∧
      ∀ k, k < c → s.1.rho k ≠ i := by
    rcases hr.res with ⟨h1, -⟩ | ⟨i', h1, h2, h3⟩
    · omega
    · have : i = i' := by exact_mod_cast h1
      subst this; exact ⟨h2, h3⟩
  have hin : i < E.A.dim := by rw [hE.lenA]; exact hpiv.1.lt
  have hib : BornBy (· < rad) E.A.barcode i := hr.born h hckd i hpiv.2.1
  set x : ℕ → ZMod E.p := restr (ActBy (· ≤ rad) E.A.barcode) (zv E.p (K.col c)) with hx
  have hxtri : Tri i x := by
    refine ⟨?_, ?_⟩
    · rw [hx, restr_apply_pos hpiv.1]; exact hpiv.2.1
    · intro l hl
      by_contra hc'
      by_cases hla : ActBy (· ≤ rad) E.A.barcode l
      · rw [hx, restr_apply_pos hla] at hl
        exact hl (hpiv.2.2 l (by omega) hla)
      · exact hl (restr_apply_neg hla)
  have hmul : zv E.p (mulAt E.p E.F aA (K.col c)) = E.ev x :=
    zv_mulAt hE hL.sA hL.mA (fun i hi => by rw [hE.lenA]; exact hi.lt) _
  have hevz : ∀ r, ActBy (· ≤ rad) E.B.barcode r → E.ev x r = 0 := by
    intro r hrB
    have h1 := hE.ker_le (hr.born h hckd) (hr.ker h hckd)
    have h2 := congrFun h1 r
    rw [IKEnv.mor_apply, restr_apply_pos hrB] at h2
    exact h2
  have hany : npAny (aB.map fun r => (mulAt E.p E.F aA (K.col c)).getD r 0) = false := by
    simp only [npAny, List.any_eq_false, List.mem_map]
    rintro y ⟨r, hrB, rfl⟩
    have := hevz r ((hL.mB r).1 hrB)
    rw [← hmul] at this
    have := ((mulAt_red hp0 E.F aA (K.col c)).zv_eq_zero hp0 r).1 this
    simpa using this
  have hKRedne : ∀ k, k ≠ c → K.col k = s.1.ker.col k := hr.other
  have hpivD : s.1.pivIm.getD i 0 = s.1.piv i := by
    unfold IK.piv
    have : i < s.1.pivIm.length := by rw [hc.sh.pivIm]; exact hin
    rw [List_getD_eq_getElem _ _ this, List_getD_eq_getElem _ _ this]
  have hpne : s.1.piv i ≠ -2 := by
    intro h2
    have := (hc.unborn i hin).1 h2
    rw [cutAt_hi (by omega)] at this
    exact this hib
  -- facts common to both cases
  have common : ∀ st' : IK α, st'.pivKer = s.1.pivKer.set c (i : Int) → st'.ker = K →
      st'.kerBar = s.1.kerBar → st'.kdim = s.1.kdim →
      MatOK E.p E.B.dim E.A.dim st'.im → MatOK E.p E.A.dim E.A.dim st'.T →
      st'.pivIm.length = E.A.dim → st'.imDeath.length = E.A.dim →
      st'.piv i = -1 → (∀ j, j ≠ i → st'.piv j = s.1.piv j) →
      (∀ j, j ≠ i → E.V st' j = E.V s.1 j ∧ E.Tc st' j = E.Tc s.1 j) →
      ((s.1.piv i ≠ -1 ∧ E.V st' i = E.ev x) ∨ (s.1.piv i = -1 ∧ E.V st' i = E.V s.1 i)) →
      st'.imDeath = s.1.imDeath.set i rad →
      KMid E rad st0 (c + 1) (st', s.2 ++ [(i : Int)]) := by
    intro st' e1 e2 e3 e4 e5 e6 e7 e8 e9 e10 e11 e12 e13
    have hrho : ∀ k, st'.rho k = if k = c then (i : Int) else s.1.rho k := by
      intro k
      have := rho_setKer (st := s.1) (K := K) (q := (i : Int)) hpl k
      rw [← this]
      unfold IK.rho IK.setKer
      rw [e1]
    have hrne : ∀ k, k ≠ c → st'.rho k = s.1.rho k := fun k hk => by rw [hrho, if_neg hk]
    have hrcc : st'.rho c = i := by rw [hrho, if_pos rfl]
    have hKne : ∀ k, k ≠ c → E.Kc st' k = E.Kc s.1 k := fun k hk => by
      unfold IKEnv.Kc; rw [e2, hKRedne k hk]
    have hKc : E.Kc st' c = zv E.p (K.col c) := by unfold IKEnv.Kc; rw [e2]
    have hpj : ∀ j, ∀ r : ℕ, st'.piv j = r → j ≠ i ∧ s.1.piv j = r := by
      intro j r hj
      have : j ≠ i := by rintro rfl; rw [e9] at hj; omega
      exact ⟨this, e10 j this ▸ hj⟩
    refine ⟨{
      sh := ⟨e5, e6, by rw [e2]; exact hr.ok, e7, e8, by simp [e1, hc.sh.pivKer],
        by rw [e3]; exact hc.sh.kerBar, by rw [e4]; exact hc.sh.kdim⟩
      unborn := ?_
      pcase := ?_
      alive := ?_
      injLo := fun j j' h => absurd h (by omega)
      injHi := ?_
      dead := ?_
      g1 := ?_
      g2 := ?_
      gm := fun hm => absurd hm hmono
      kcase := ?_
      kge := ?_
      kalive := ?_
      kinjLo := ?_
      kinjHi := ?_
      kdead := ?_
      ksupp := ?_
      kker := ?_
      cover := ?_
      disj := ?_
      upA := ?_
      kdle := ?_
      kb := ?_
      kbmono := ?_
      kbs := ?_
      db := ?_
      kpiv := ?_ }, ?_, ?_, ?_, ?_, h.oinj, fun hm => absurd hm hmono⟩
    · intro j hj
      by_cases hji : j = i
      · subst hji
        rw [e9, cutAt_hi (by omega)]
        constructor
        · intro h; omega
        · intro h; exact absurd hib h
      · rw [e10 j hji]; exact hc.unborn j hj
    · intro j hj
      by_cases hji : j = i
      · subst hji; right; left; exact e9
      · rw [e10 j hji]; exact hc.pcase j hj
    · intro j hj r hjr
      obtain ⟨h1, h2⟩ := hpj j r hjr
      rw [(e11 j h1).1]; exact hc.alive j hj r h2
    · intro j j' h1 h2 r hj hj'
      exact hc.injHi j j' h1 h2 r (hpj j r hj).2 (hpj j' r hj').2
    · intro j hj hj1 r hrB
      by_cases hji : j = i
      · subst hji
        rcases e12 with ⟨-, h1⟩ | ⟨h1, h2⟩
        · rw [h1]; exact hevz r hrB
        · rw [h2]; exact hc.dead j hj h1 r hrB
      · rw [(e11 j hji).1]; exact hc.dead j hj (e10 j hji ▸ hj1) r hrB
    · intro j hj
      by_cases hji : j = i
      · subst hji
        rcases e12 with ⟨-, h1⟩ | ⟨h1, h2⟩
        · exact ⟨x, hxtri, h1⟩
        · rw [h2]; exact hc.g1 j hj
      · rw [(e11 j hji).1]; exact hc.g1 j hj
    · intro j hj hj1
      have hji : j ≠ i := by rintro rfl; exact hj1 e9
      rw [(e11 j hji).1, (e11 j hji).2]; exact hc.g2 j hj (e10 j hji ▸ hj1)
    · intro k hk
      rw [e4] at hk
      by_cases hkc : k = c
      · right; exact ⟨i, by rw [hkc, hrcc]⟩
      · rw [hrne k hkc]; exact hc.kcase k hk
    · intro k hk
      rw [e4] at hk
      rw [hrne k (by omega)]; exact hc.kge k hk
    · intro k l hk
      by_cases hkc : k = c
      · subst hkc
        rw [hrcc] at hk
        have : i = l := by exact_mod_cast hk
        subst this
        rw [cutAt_lo (by omega), hKc]; exact hpiv
      · rw [hrne k hkc] at hk
        rw [cut_succ_ne hkc, hKne k hkc]; exact hc.kalive k l hk
    · have key : ∀ k, k < c → ∀ l : ℕ, st'.rho k = l → st'.rho c = l → False := by
        intro k hk l h1 h2
        rw [hrne k (by omega)] at h1
        rw [hrcc] at h2
        exact hnew k hk (h1.trans h2.symm)
      intro k k' hk hk' l h1 h2
      by_cases hkc : k = c
      · by_cases hkc' : k' = c
        · omega
        · exact (key k' (by omega) l h2 (hkc ▸ h1)).elim
      · by_cases hkc' : k' = c
        · exact (key k (by omega) l h1 (hkc' ▸ h2)).elim
        · rw [hrne k hkc] at h1
          rw [hrne k' hkc'] at h2
          exact hc.kinjLo k k' (by omega) (by omega) l h1 h2
    · intro k k' hk hk' l h1 h2
      rw [hrne k (by omega)] at h1
      rw [hrne k' (by omega)] at h2
      exact hc.kinjHi k k' (by omega) (by omega) l h1 h2
    · intro k hk hk1
      rw [e4] at hk
      have hkc : k ≠ c := by rintro rfl; rw [hrcc] at hk1; omega
      rw [hKne k hkc]; exact hc.kdead k hk (hrne k hkc ▸ hk1)
    · intro k hk
      rw [e4] at hk
      by_cases hkc : k = c
      · rw [hkc, hKc]; exact hr.born h hckd
      · rw [hKne k hkc]; exact hc.ksupp k hk
    · intro k hk
      rw [e4] at hk
      by_cases hkc : k = c
      · rw [hkc, hKc]; exact hr.ker h hckd
      · rw [hKne k hkc]; exact hc.kker k hk
    · intro l hl hb
      by_cases hli : l = i
      · subst hli; right; exact ⟨c, by rw [e4]; exact hckd, hrcc⟩
      · rcases hc.cover l hl hb with ⟨r, h1⟩ | ⟨k, h1, h2⟩
        · left; exact ⟨r, by rw [e10 l hli]; exact h1⟩
        · right
          by_cases hkc : k = c
          · have : l = i0 := by rw [hkc, hrc] at h2; exact_mod_cast h2.symm
            subst this
            obtain ⟨k', h3, h4⟩ := h.cover_trig hL htr hl
            refine ⟨k', ?_, by rw [hrne k' (by omega)]; exact h4⟩
            rw [e4]
            exact hc.rho_lt (by rw [h4]; omega)
          · exact ⟨k, by rw [e4]; exact h1, by rw [hrne k hkc]; exact h2⟩
    · intro l r hl k hk
      obtain ⟨h1, h2⟩ := hpj l r hl
      by_cases hkc : k = c
      · rw [hkc, hrcc] at hk
        exact h1 (by exact_mod_cast hk.symm)
      · exact hc.disj l r h2 k (hrne k hkc ▸ hk)
    · intro j hj r hjr
      exact hc.upA j hj r (hpj j r hjr).2
    · rw [e4]
      refine hc.kdle.trans (Finset.card_le_card ?_)
      intro j hj
      simp only [Finset.mem_filter] at hj ⊢
      refine ⟨hj.1, ?_⟩
      by_cases hji : j = i
      · rw [hji]; exact e9
      · rw [e10 j hji]; exact hj.2
    · intro k hk b hb
      rw [e4] at hk
      rw [e3] at hb
      refine ⟨(hc.kb k hk b hb).1, ?_⟩
      intro hk1
      have hkc : k ≠ c := by rintro rfl; rw [hrcc] at hk1; omega
      exact (hc.kb k hk b hb).2 (hrne k hkc ▸ hk1)
    · intro k k' hkk hk' b b' hb hb'
      rw [e4] at hk'
      rw [e3] at hb hb'
      exact hc.kbmono k k' hkk hk' b b' hb hb'
    · intro k hk b hb
      rw [e4] at hk
      rw [e3] at hb
      by_cases hkc : k = c
      · subst hkc
        rw [hKc]; exact hr.bornAt h hckd hb
      · rw [hKne k hkc]; exact hc.kbs k hk b hb
    · intro j hj hj1 e he
      rw [e13, getElem?_set'] at he
      by_cases hji : j = i
      · rw [if_pos hji, Option.map_eq_some_iff] at he
        obtain ⟨_, -, rfl⟩ := he
        exact le_rfl
      · rw [if_neg hji] at he
        exact hc.db j hj (e10 j hji ▸ hj1) e he
    · intro k l hk
      by_cases hkc : k = c
      · rw [hkc, hrcc] at hk
        have : i = l := by exact_mod_cast hk
        subst this; exact Or.inl hib
      · exact hc.kpiv k l (hrne k hkc ▸ hk)
    · intro t ht
      obtain ⟨U, W, h1, h2, h3⟩ := h.hist t ht
      refine ⟨U, W, ?_, ?_, h3⟩
      · refine HistIm.update ht h1 ?_ hE.lenA
        intro j hj
        by_cases hji : j = i
        · subst hji
          right; left
          refine ⟨e9, ?_, ?_⟩
          · intro d hd
            rw [e13, getElem?_set', if_pos rfl, Option.map_eq_some_iff] at hd
            obtain ⟨_, -, h⟩ := hd
            exact h.symm
          · intro hm1
            refine ⟨?_, hmono⟩
            rcases e12 with ⟨h4, -⟩ | ⟨-, h4⟩
            · exact absurd hm1 h4
            · exact h4
        · left
          exact ⟨e10 j hji, (e11 j hji).1, by rw [e13, getElem?_set', if_neg hji]⟩
      · refine HistKer.update hE.hp ht h2 c a e4 (by rw [hrc]; omega) ?_ ?_ ?_ (Or.inl ⟨?_, ?_⟩)
          hc.kbmono (by rw [hc.sh.kerBar]; exact hc.sh.kdim)
        · intro k hk
          exact ⟨hrne k hk, hKne k hk, by rw [e3]⟩
        · rw [hKc]; exact hr.eq
        · intro l hl _; exact (hr.supp l hl).2
        · rw [hrcc]; omega
        · rw [e3]
    · intro q hq
      rcases List.mem_append.1 hq with hq | hq
      · obtain ⟨l, h1, k, h2, h3⟩ := h.N q hq
        exact ⟨l, h1, k, by omega, by rw [hrne k (by omega)]; exact h3⟩
      · rw [List.mem_singleton] at hq
        exact ⟨i, hq, c, by omega, hrcc⟩
    · intro k hk l hl
      by_cases hkc : k = c
      · left
        rw [hkc, hrcc] at hl
        rw [← hl]; simp
      · rcases h.N2 k (by omega) l (hrne k hkc ▸ hl) with h1 | h1
        · left; exact List.mem_append_left _ h1
        · right; exact h1
    · intro k hk
      rw [hrne k (by omega)]; exact h.un k (by omega)
  have hVcol : ∀ (st' : IK α) (N : Mat) (j : ℕ), st'.im = N → E.V st' j = zv E.p (N.col j) := by
    rintro st' N j rfl; rfl
  have hil : i < s.1.im.cols.length := by rw [hc.sh.im.ncols]; exact hin
  have hiT : i < s.1.T.cols.length := by rw [hc.sh.T.ncols]; exact hin
  have hip : i < s.1.pivIm.length := by rw [hc.sh.pivIm]; exact hin
  unfold kerHit
  rw [if_neg (by rw [hany]; simp)]
  dsimp only
  rw [hpivD]
  by_cases hm1 : s.1.piv i = -1
  · rw [if_neg (by simpa using hm1)]
    refine ⟨_, rfl, common _ rfl rfl rfl rfl hc.sh.im hc.sh.T hc.sh.pivIm ?_ hm1 (fun _ _ => rfl)
      (fun _ _ => ⟨rfl, rfl⟩) (Or.inr ⟨hm1, rfl⟩) rfl⟩
    simp [hc.sh.imDeath]
  · rw [if_pos hm1]
    refine ⟨_, rfl, common _ rfl rfl rfl rfl ?_ ?_ ?_ ?_ ?_ ?_ ?_ (Or.inl ⟨hm1, ?_⟩) rfl⟩
    · exact hc.sh.im.setCol i (by rw [mulAt_len]; exact hE.FOK.rows) (mulAt_red hp0 _ _ _)
    · exact hc.sh.T.setCol i (by rw [overwriteAt_len]; exact hc.sh.T.col_len hin)
        (overwriteAt_red hp0 _ (hc.sh.T.col_red i) (hr.ok.col_red c))
    · simp [hc.sh.pivIm]
    · simp [hc.sh.imDeath]
    · unfold IK.piv
      dsimp only
      rw [getD_set _ _ _ _ _ hip, if_pos rfl]
    · intro j hj
      unfold IK.piv
      dsimp only
      rw [getD_set _ _ _ _ _ hip, if_neg hj]
    · intro j hj
      unfold IKEnv.V IKEnv.Tc
      dsimp only
      rw [Mat.col_setCol, Mat.col_setCol, if_neg (fun h => hj h.1.symm), if_neg (fun h => hj h.1.symm)]
      exact ⟨rfl, rfl⟩
    · unfold IKEnv.V
      dsimp only
      rw [Mat.col_setCol, if_pos ⟨rfl, hil⟩]
      exact hmul

/-- If deaths are monotone, a dying pivot means that the whole column dies. -/
theorem KMid.mono_zero (hL : Lists E rad aA aB dA bA dB) (h : KMid E rad st0 c s)
    {i0 : ℕ} (hi0 : st0.rho c = i0) (htr : i0 ∈ dA ∨ (i0 : Int) ∈ s.2) (hm : E.MonoDeath) :
    ∀ i, ActBy (· ≤ rad) E.A.barcode i → E.Kc s.1 c i = 0 := by
  intro i hi
  have hc := h.core
  have hrc : s.1.rho c = i0 := (h.un c le_rfl).trans hi0
  have hckd : c < s.1.kdim := hc.rho_lt (by rw [hrc]; omega)
  have hd : i0 ∈ dA := by
    rcases htr with h1 | h1
    · exact h1
    · rw [h.mono hm] at h1; simp at h1
  by_contra hne
  have ha := hc.kalive c i0 hrc
  rw [cutAt_hi le_rfl] at ha
  have hio := act_old hi (hc.ksupp c hckd i hne)
  have hle : i ≤ i0 := by
    by_contra hlt
    exact hne (ha.2.2 i (by omega) hio)
  obtain ⟨b0, hb0, hb0r⟩ := (hL.mdA i0).1 hd
  obtain ⟨b, hb, -, hb2⟩ := hi
  exact hb2 ((hm i i0 b b0 hle hb hb0).trans (le_of_eq hb0r))

theorem KMid.step (hE : EnvOK E) (hL : Lists E rad aA aB dA bA dB) (h : KMid E rad st0 c s)
    (hcn : c < E.A.dim) (hst0 : st0.pivKer.length = E.A.dim) :
    ∃ s', kerStep E rad aA aB dA st0.pivKer s c = .ok s' ∧ KMid E rad st0 (c + 1) s' := by
  have hold : st0.pivKer.getD c 0 = st0.rho c := by
    unfold IK.rho
    have : c < st0.pivKer.length := by omega
    rw [List_getD_eq_getElem _ _ this, List_getD_eq_getElem _ _ this]
  unfold kerStep
  rw [hold]
  by_cases ht : (dA.any (fun d => (d : Int) == st0.rho c) || s.2.contains (st0.rho c)) = true
  · rw [if_pos ht]
    have htr : ∃ i0 : ℕ, st0.rho c = i0 ∧ (i0 ∈ dA ∨ (i0 : Int) ∈ s.2) := by
      rw [Bool.or_eq_true] at ht
      rcases ht with h1 | h1
      · rw [List.any_eq_true] at h1
        obtain ⟨d, h2, h3⟩ := h1
        have : (d : Int) = st0.rho c := by simpa using h3
        exact ⟨d, this.symm, Or.inl h2⟩
      · have h1 : st0.rho c ∈ s.2 := by simpa using h1
        obtain ⟨i, h2, -⟩ := h.N _ h1
        exact ⟨i, h2, Or.inr (h2 ▸ h1)⟩
    obtain ⟨i0, hi0, htr⟩ := htr
    obtain ⟨K, T, a, q, h1, h2⟩ := h.reduce hE hL hcn
    rw [h1]
    dsimp only
    rcases h2.res with ⟨h3, -⟩ | ⟨i, h3, -⟩
    · subst h3
      rw [if_neg (by simp)]
      exact ⟨_, rfl, h.die hE hL hcn hi0 htr h2⟩
    · subst h3
      rw [if_pos (by omega)]
      have hmono : ¬ E.MonoDeath := by
        intro hm
        have := pivotCheckReduce_triv (p := E.p) (active := aA) (col := c)
          (pivPrev := s.1.pivKer.take c) (T := none) h.core.sh.ker hE.hp.pos
          (fun r hr => h.mono_zero hL hi0 htr hm r ((hL.mA r).1 hr))
        rw [this] at h1
        injection h1 with h1
        have := congrArg (fun x => x.2.2) h1
        simp only at this
        omega
      obtain ⟨st', h4, h5⟩ := h.hit hE hL hcn hi0 htr h2 hmono
      simp only [Int.toNat_natCast]
      rw [h4]
      exact ⟨_, rfl, h5⟩
  · rw [if_neg ht]
    refine ⟨s, rfl, h.skip hL ?_ ?_⟩
    · intro i hi hd
      apply ht
      rw [Bool.or_eq_true]; left
      rw [List.any_eq_true]
      exact ⟨i, hd, by simp [hi]⟩
    · intro hN
      apply ht
      rw [Bool.or_eq_true]; right
      simpa using hN

/-- The loop over kernel generators. -/
theorem kerPhase_spec (hE : EnvOK E) (hL : Lists E rad aA aB dA bA dB) {st : IK α}
    (hc : Core E (· < rad) (· < rad) (· < rad) 0 0 st) (hh : Hist E st (· < rad)) :
    ∃ st', kerPhase E rad aA aB dA st = .ok st' ∧
      Core E (· < rad) (· ≤ rad) (· ≤ rad) E.A.dim 0 st' ∧ Hist E st' (· < rad) := by
  have hcut : ∀ j, cutAt (· < rad) (· < rad) 0 j = (· < rad) := fun j => cutAt_hi (by omega)
  have hcut' : ∀ j, cutAt (· < rad) (· ≤ rad) 0 j = (· < rad) := fun j => cutAt_hi (by omega)
  have h0 : KMid E rad st 0 (st, []) := by
    refine ⟨{ hc with
      unborn := ?_, alive := ?_, dead := ?_, kalive := ?_, kdead := ?_, cover := ?_, kb := ?_,
      db := ?_ }, hh, by simp, fun k hk => absurd hk (by omega), fun _ _ => rfl, ?_, fun _ => rfl⟩
    · intro j hj; have := hc.unborn j hj; rw [hcut] at this; rw [hcut']; exact this
    · intro j hj; have := hc.alive j hj; rw [hcut] at this; rw [hcut']; exact this
    · intro j hj hj1 r hr
      by_contra hne
      obtain ⟨τ, h1, h2⟩ := hc.g1 j hj
      have hb : BornBy (· < rad) E.A.barcode j := by
        by_contra hb
        have := (hc.unborn j hj).2 (by rw [hcut]; exact hb)
        dsimp only at hj1
        omega
      dsimp only at hne
      rw [h2] at hne
      have := hE.ev_supp (down_lt rad) (hE.tri_born (down_lt rad) h1 hb) r hne
      exact hne (h2 ▸ hc.dead j hj hj1 r (act_old hr this))
    · intro k i hk; have := hc.kalive k i hk; rw [hcut] at this; rw [hcut']; exact this
    · intro k hk hk1 i hi
      by_contra hne
      exact hne (hc.kdead k hk hk1 i (act_old hi (hc.ksupp k hk i hne)))
    · intro i hi hb
      have hb : BornBy (· < rad) E.A.barcode i := by
        rcases hb with h | h
        · exact h
        · omega
      exact hc.cover i (act_old hi hb) (Or.inl hb)
    · intro k hk b hb
      have := hc.kb k hk b hb
      exact ⟨le_of_lt this.1, fun h => le_of_lt (this.2 h)⟩
    · intro j hj hj1 e he
      exact le_of_lt (hc.db j hj hj1 e he)
    · intro k k' i
      exact hc.kinjHi k k' (by omega) (by omega) i
  obtain ⟨s, h1, h2⟩ := foldlM_range_inv (kerStep E rad aA aB dA st.pivKer)
    (fun c s => KMid E rad st c s) E.A.dim (st, []) h0
    (fun c hcn s hs => hs.step hE hL hcn hc.sh.pivKer)
  refine ⟨s.1, ?_, ?_, h2.hist⟩
  · unfold kerPhase; rw [h1]
  · have h3 := h2.core
    exact { h3 with
      ksupp := fun k hk i hi => (h3.ksupp k hk i hi).le
      kker := fun k hk => hE.ker_le (h3.ksupp k hk) (h3.kker k hk) }

end Permaviss
