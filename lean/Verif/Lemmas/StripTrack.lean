import Verif.Lemmas.StripPages

/-!
# The pages of a spectral sequence with two columns
-/

namespace Permaviss

section

variable {α : Type} [LinearOrder α] [Zero α] {rnd : α → α} {E : SSEnv α}

/-! ## Positions which are zero -/

theorem mph_zero_at {p : ℕ} {D : List Mat} {Base : List (Basis α)} {out : MPH α}
    (h : modulePersistenceHomology rnd p D Base = .ok out) {i : ℕ} {X : Basis α} (hX : Base[i]? = some X)
    (h0 : X.dim = 0 ∧ X.barcode = []) {H : Basis α} (hH : out.hom.getD i none = some H) :
    H.dim = 0 ∧ H.barcode = [] := by
  unfold modulePersistenceHomology at h
  split at h
  · cases h
  rw [bind_ok] at h
  obtain ⟨st, h1, h2⟩ := h
  have hinv : ∀ H, st.hom[i]? = some (some H) → H.dim = 0 ∧ H.barcode = [] := by
    refine foldlM_ok_inv (fun st => ∀ H, st.hom[i]? = some (some H) → H.dim = 0 ∧ H.barcode = []) ?_ h1 ?_
    · intro st d st' _ hs hI H hH
      unfold mphStep at hs
      split at hs
      swap
      · cases hs
      next Bd Bd1 e1 e2 =>
      by_cases hd : d = i
      · subst hd
        rw [hX] at e1
        cases e1
        rw [if_pos h0.1] at hs
        cases hs
        dsimp only at hH
        rw [List.getElem?_set] at hH
        rw [if_pos rfl] at hH
        split at hH
        · cases hH; exact ⟨rfl, rfl⟩
        · cases hH
      · split at hs
        · cases hs
          dsimp only at hH
          rw [List.getElem?_set_ne hd] at hH
          exact hI H hH
        split at hs
        · cases hs
          dsimp only at hH
          rw [List.getElem?_set_ne hd] at hH
          exact hI H hH
        split at hs
        · cases hs
        rw [bind_ok] at hs
        obtain ⟨out, -, hs⟩ := hs
        split at hs
        swap
        · cases hs
        rw [bind_ok] at hs
        obtain ⟨q, -, hs⟩ := hs
        cases hs
        dsimp only at hH
        rw [List.getElem?_set_ne hd] at hH
        exact hI H hH
    · intro H hH
      rw [List.getElem?_replicate] at hH
      split at hH <;> cases hH
  unfold mphZero at h2
  split at h2
  swap
  · cases h2
  next B0 im0 e1 e2 =>
  rw [List.getD_eq_getElem?_getD] at hH
  by_cases hi : i = 0
  · subst hi
    rw [hX] at e1
    cases e1
    rw [if_pos h0.1] at h2
    cases h2
    dsimp only at hH
    rw [List.getElem?_set, if_pos rfl] at hH
    split at hH
    · cases hH; exact h0
    · cases hH
  · have : out.hom[i]? = st.hom[i]? := by
      split at h2
      · cases h2
        exact List.getElem?_set_ne (fun e => hi e.symm)
      · rw [bind_ok] at h2
        obtain ⟨k0, -, h2⟩ := h2
        rw [bind_ok] at h2
        obtain ⟨⟨k, ord⟩, -, h2⟩ := h2
        dsimp only at h2
        rw [bind_ok] at h2
        obtain ⟨q, -, h2⟩ := h2
        cases h2
        exact List.getElem?_set_ne (fun e => hi e.symm)
    rw [this] at hH
    cases hc : st.hom[i]? with
    | none => rw [hc] at hH; cases hH
    | some o =>
      rw [hc] at hH
      cases o with
      | none => cases hH
      | some H' =>
        cases hH
        exact hinv H hc

theorem basisOfBars_dim {X : Basis α} (h : basisOfBars ([] : List (α × α)) = .ok X) :
    X.dim = 0 ∧ X.barcode = [] := by
  rw [basisOfBars_eq (by simp)] at h
  cases h; exact ⟨rfl, rfl⟩

/-- The columns from the third one are zero. -/
def ZeroColumns (S : SSt α) : Prop := ∀ k n deg, 2 ≤ n → (S.hom k n deg).basis.dim = 0 ∧
  (S.hom k n deg).basis.barcode = []

theorem Written.zeroColumns {S S' : SSt α} {out : MPH α} {base : List (HomEntry α)}
    {positions : List (ℕ × ℕ)} {page : ℕ} (w : Written S S' out base positions page)
    (hpos : ∀ (i : ℕ) (x : ℕ × ℕ), positions[i]? = some x → 2 ≤ x.1 →
      ∀ H, out.hom.getD i none = some H → H.dim = 0 ∧ H.barcode = []) (hI : ZeroColumns S) : ZeroColumns S' := by
  intro k n deg hn
  by_cases hc : k = page ∧ (n, deg) ∈ positions
  · obtain ⟨rfl, hm⟩ := hc
    obtain ⟨i, hi⟩ := List.mem_iff_getElem?.1 hm
    obtain ⟨H, w1, w2, -, -⟩ := w.new i _ hi
    dsimp only at w2
    rw [w2]
    exact hpos i _ hi hn H w1
  · rw [(w.old k n deg hc).1]; exact hI k n deg hn

theorem rows_zeroColumns {N m : ℕ} (hz : ∀ n deg, 2 ≤ n → E.firstBars deg n = []) {S : SSt α}
    (h : (List.range m).foldlM (pageOneRow rnd E N) SSt.init = .ok S) : ZeroColumns S := by
  refine foldlM_ok_inv ZeroColumns ?_ h fun k n deg _ => ⟨rfl, rfl⟩
  intro T deg T' _ hT hI
  obtain ⟨base, diffs, out, r1, -, r3, w⟩ := pageOneRow_written hT
  refine w.zeroColumns ?_ hI
  intro i x hi hx H hH
  obtain ⟨m1, m2⟩ := mapM_ok_spec r1
  rw [List.length_range] at m1
  rw [List.getElem?_map, Option.map_eq_some_iff] at hi
  obtain ⟨j, hj, rfl⟩ := hi
  obtain ⟨hjl, hje⟩ := List.getElem?_eq_some_iff.1 hj
  rw [List.getElem_range] at hje
  subst hje
  rw [List.length_range] at hjl
  have := m2 i (by simpa using hjl) (by omega)
  rw [List.getElem_range, hz i deg hx] at this
  exact mph_zero_at r3 (List.getElem?_eq_getElem (by omega)) (basisOfBars_dim this) hH

theorem pages_zeroColumns {N : ℕ} {cps : List ℕ} (hcps : ∀ cp ∈ cps, 2 ≤ cp ∧ cp ≤ N) {S S' : SSt α}
    (h : cps.foldlM (pageHigher rnd E N) S = .ok S') (h0 : ZeroColumns S) : ZeroColumns S' := by
  refine foldlM_ok_inv ZeroColumns ?_ h h0
  intro T cp T' hcp hT hI
  have := hcps cp hcp
  unfold pageHigher at hT
  refine foldlM_ok_inv ZeroColumns ?_ hT hI
  intro U s U' hs hU hI
  have hs' := (mem_pageStarts.1 hs).1
  obtain ⟨diffs, out, -, r3, w⟩ := pageSequence_written (by omega) (by omega : s.1 < N) hU
  refine w.zeroColumns ?_ hI
  intro i x hi hx H hH
  refine mph_zero_at r3 (i := i) (X := (U.hom (cp - 1) x.1 x.2).basis) ?_ (hI _ _ _ hx) hH
  rw [List.getElem?_map, hi]; rfl

theorem allPages_zeroColumns {N : ℕ} (hNp : E.noPages ≤ N + 1) (hz : ∀ n deg, 2 ≤ n → E.firstBars deg n = [])
    {S : SSt α} (h : allPages rnd E N = .ok S) : ZeroColumns S := by
  unfold allPages at h
  rw [bind_ok] at h
  obtain ⟨T, h3, h4⟩ := h
  refine pages_zeroColumns ?_ h4 (rows_zeroColumns hz h3)
  intro cp hcp
  obtain ⟨i, hi, rfl⟩ := List.mem_map.1 hcp
  have := List.mem_range.1 hi
  omega

/-! ## Representatives -/

theorem computeTwoPage_reps {S S' : SSt α} {n deg : ℕ} (h : computeTwoPage E S n deg = .ok S') {a b c : ℕ}
    (hne : ¬ (a = 1 ∧ b = n ∧ c = deg)) : S'.reps a b c = S.reps a b c := by
  unfold computeTwoPage at h
  by_cases h0 : (S.hom 1 n deg).basis.dim = 0
  · simp only [if_pos h0] at h
    cases h; rfl
  · simp only [if_neg h0] at h
    rw [bind_ok] at h
    obtain ⟨cyc, _, h⟩ := h
    rw [bind_ok] at h
    obtain ⟨C, _, h⟩ := h
    split at h
    · cases h; exact if_neg hne
    · rw [bind_ok] at h
      obtain ⟨out, _, h⟩ := h
      split at h
      · cases h
      · cases h; exact if_neg hne

theorem computeHigher_reps {S S' : SSt α} {n deg cp : ℕ} (h : computeHigher rnd E S n deg cp = .ok S')
    {a b c : ℕ} (hne : ¬ (a = cp ∧ b = n ∧ c = deg)) : S'.reps a b c = S.reps a b c := by
  unfold computeHigher at h
  by_cases h0 : (S.hom cp n deg).basis.dim = 0
  · simp only [if_pos h0] at h
    cases h; exact if_neg hne
  · simp only [if_neg h0] at h
    rw [bind_ok] at h
    obtain ⟨tot, _, h⟩ := h
    split at h
    · cases h; exact if_neg hne
    · rw [bind_ok] at h
      obtain ⟨tot', _, h⟩ := h
      rw [bind_ok] at h
      obtain ⟨last, _, h⟩ := h
      rw [bind_ok] at h
      obtain ⟨out, _, h⟩ := h
      split at h
      · cases h
      · cases h; exact if_neg hne

theorem addOutputHigher_reps {S S' : SSt α} {out : MPH α} {base : List (HomEntry α)}
    {positions : List (ℕ × ℕ)} {page : ℕ} (h : addOutputHigher S out base positions page = .ok S') :
    S'.reps = S.reps := by
  unfold addOutputHigher at h
  refine foldlM_ok_inv (fun T => T.reps = S.reps) ?_ h rfl
  intro T x T' _ hT hI
  split at hT
  · cases hT
  · cases hT; exact hI

/-- A list of chains with the values of `Q` keeps them when it is multiplied by the identity. -/
def StableRep (m : ℕ) (Q : List LChains → Prop) : Prop :=
  ∀ l l', Q l → l.mapM (fun C => C.sums (identityCols m) m) = .ok l' → Q l'

theorem pageOneRow_reps {N deg : ℕ} {S S' : SSt α} (h : pageOneRow rnd E N S deg = .ok S') {a b c : ℕ}
    (hne : ¬ (a = 1 ∧ c = deg)) : S'.reps a b c = S.reps a b c := by
  unfold pageOneRow at h
  rw [bind_ok] at h
  obtain ⟨base, h1, h⟩ := h
  rw [bind_ok] at h
  obtain ⟨diffs, h2, h⟩ := h
  rw [bind_ok] at h
  obtain ⟨out, h3, h⟩ := h
  rw [bind_ok] at h
  obtain ⟨S1, h4, h⟩ := h
  refine foldlM_ok_inv (fun T => T.reps a b c = S.reps a b c) ?_ h (by rw [addOutputHigher_reps h4])
  intro T n T' _ hT hI
  rw [computeTwoPage_reps hT (fun hc => hne ⟨hc.1, hc.2.2⟩)]; exact hI

theorem pageSequence_reps {N cp : ℕ} {S S' : SSt α} {s : ℕ × ℕ} (h : pageSequence rnd E N cp S s = .ok S')
    {a b c : ℕ} (hne : ¬ (a = cp ∧ (b, c) ∈ sweep cp N N s.1 s.2)) : S'.reps a b c = S.reps a b c := by
  unfold pageSequence at h
  simp only [] at h
  rw [bind_ok] at h
  obtain ⟨diffs, h2, h⟩ := h
  rw [bind_ok] at h
  obtain ⟨out, h3, h⟩ := h
  rw [bind_ok] at h
  obtain ⟨S1, h4, h⟩ := h
  refine foldlM_ok_inv (fun T => T.reps a b c = S.reps a b c) ?_ h (by rw [addOutputHigher_reps h4])
  intro T x T' hx hT hI
  rw [computeHigher_reps hT (by rintro ⟨rfl, rfl, rfl⟩; exact hne ⟨rfl, hx⟩)]; exact hI

/-- The entry of position `(n, deg)` of page `k` is the one of page one. -/
structure KeptPage (S : SSt α) (n deg k : ℕ) (H : Basis α) : Prop where
  bars : (S.hom k n deg).basis.barcode = H.barcode
  dim : (S.hom k n deg).basis.dim = H.dim
  coords : H.dim ≠ 0 → (S.hom k n deg).basis.flat = false ∧
    (S.hom k n deg).basis.coords = ⟨H.dim, identityCols H.dim⟩ ∧ (S.hom k n deg).prev = some H.barcode
  im : ∃ I, S.im k n deg = some I ∧ I.dim = 0 ∧ I.barcode = []

theorem sweep_cons {cp N n deg : ℕ} (hcp : 2 ≤ cp) (hn : n < N) :
    ∃ rest, sweep cp N N n deg = (n, deg) :: rest ∧ ∀ x ∈ rest, cp ≤ x.1 := by
  obtain ⟨N, rfl⟩ : ∃ M, N = M + 1 := ⟨N - 1, by omega⟩
  have hg := fun i => sweep_get (N := N + 1) hcp (N + 1) n deg i
  cases hs : sweep cp (N + 1) (N + 1) n deg with
  | nil =>
    have := hg 0 hn (by omega)
    rw [hs] at this
    simp [hn] at this
  | cons x rest =>
    have := hg 0 hn (by omega)
    rw [hs] at this
    simp only [List.getElem?_cons_zero, Nat.zero_mul, Nat.add_zero, hn, Nat.zero_le, and_self, if_true,
      Nat.sub_zero, Option.some.injEq] at this
    subst this
    refine ⟨rest, rfl, fun x hx => ?_⟩
    obtain ⟨i, hi⟩ := List.mem_iff_getElem?.1 hx
    have := hg (i + 1) hn (by omega)
    rw [hs, List.getElem?_cons_succ, hi] at this
    split at this
    · cases this
      have : cp ≤ (i + 1) * cp := Nat.le_mul_of_pos_left _ (by omega)
      dsimp only
      omega
    · cases this

/-- The list of chains is the result of a multiplication by the identity. -/
def Summed (m : ℕ) (l' : List LChains) : Prop :=
  ∃ l : List LChains, l.mapM (fun C => C.sums (identityCols m) m) = .ok l'

/-- One sequence of a higher page, at its first position. -/
theorem pageSequence_first {N cp n deg : ℕ} (hcp : 2 ≤ cp) (hn : n < cp) (hnN : n < N) {S S' : SSt α}
    (hz : ∀ x ∈ sweep cp N N n deg, cp ≤ x.1 → (S.hom (cp - 1) x.1 x.2).basis.dim = 0) {H : Basis α}
    (hdim : H.dim = H.barcode.length) (hbars : ∀ b ∈ H.barcode, b.1 < b.2)
    (hsort : H.barcode.Pairwise (barLE rnd))
    (e1 : (S.hom (cp - 1) n deg).basis.barcode = H.barcode)
    (e2 : (S.hom (cp - 1) n deg).basis.dim = H.dim)
    (e3 : (S.hom (cp - 1) n deg).basis.flat = true → H.barcode = [])
    (h : pageSequence rnd E N cp S (n, deg) = .ok S') :
    KeptPage S' n deg cp H ∧ (∀ Q, StableRep H.dim Q → H.dim ≠ 0 → Q (S.reps (cp - 1) n deg) →
      Q (S'.reps cp n deg)) ∧ (H.dim ≠ 0 → Summed H.dim (S'.reps cp n deg)) := by
  obtain ⟨rest, hsw, hrest⟩ := sweep_cons (cp := cp) (N := N) (deg := deg) hcp hnN
  obtain ⟨diffs, out, -, r3, w⟩ := pageSequence_written hcp (s := (n, deg)) hnN h
  obtain ⟨hh, w1, w2, w3, -⟩ := w.new 0 (n, deg) (by dsimp only; rw [hsw]; rfl)
  dsimp only at r3 w1 w2 w3
  obtain ⟨⟨I, k1, k2, k3⟩, H', k4, k5, k6, k7, k8⟩ := mph_keep (B := (S.hom (cp - 1) n deg).basis)
    (by
      intro d X hd hX
      rw [hsw] at hX
      obtain ⟨d, rfl⟩ : ∃ j, d = j + 1 := ⟨d - 1, by omega⟩
      rw [List.map_cons, List.getElem?_cons_succ, List.getElem?_map, Option.map_eq_some_iff] at hX
      obtain ⟨x, hx, rfl⟩ := hX
      have hm := List.mem_of_getElem? hx
      exact hz x (by rw [hsw]; exact List.mem_cons_of_mem _ hm) (hrest x hm))
    (by rw [hsw]; rfl) (by rw [e1, e2, hdim]) (by rw [e1]; exact e3) (by rw [e1]; exact hbars)
    (by rw [e1]; exact hsort) r3
  rw [k4] at w1
  obtain rfl := Option.some.inj w1
  have hkeep : KeptPage S' n deg cp H := by
    refine ⟨by rw [w2, k5, e1], by rw [w2, k6, e2], fun h0 => ?_, I, by rw [w3, k1], k2, k3⟩
    obtain ⟨q1, q2⟩ := k7 (by rw [e2]; exact h0)
    refine ⟨by rw [w2]; exact q1, by rw [w2, q2, e2], ?_⟩
    rw [w2]
    unfold prevOf
    rw [hsw]
    simp only [List.map_cons, List.getElem?_cons_zero, if_true]
    rw [if_neg (by rw [e2]; exact h0), e1]
  suffices hsum : H.dim ≠ 0 → (S.reps (cp - 1) n deg).mapM (fun C => C.sums (identityCols H.dim) H.dim) =
      .ok (S'.reps cp n deg) by
    exact ⟨hkeep, fun Q hQ h0 hq => hQ _ _ hq (hsum h0), fun h0 => ⟨_, hsum h0⟩⟩
  intro h0
  unfold pageSequence at h
  simp only [] at h
  rw [bind_ok] at h
  obtain ⟨diffs', h2, h⟩ := h
  rw [bind_ok] at h
  obtain ⟨out', h3, h⟩ := h
  rw [bind_ok] at h
  obtain ⟨S1, h4, h⟩ := h
  have hsame : S1.SameHom S' := foldlM_ok_inv (fun s => S1.SameHom s)
      (fun s n s' _ hs hI => hI.trans (computeHigher_same hs)) h (.refl _)
  rw [hsw, List.foldlM_cons, bind_ok] at h
  obtain ⟨S2, h5, h6⟩ := h
  have hr : S'.reps cp n deg = S2.reps cp n deg := by
    refine foldlM_ok_inv (fun T => T.reps cp n deg = S2.reps cp n deg) ?_ h6 rfl
    intro T x T' hx hT hI
    rw [computeHigher_reps hT (by rintro ⟨-, rfl, -⟩; have := hrest x hx; omega)]; exact hI
  rw [hr]
  have c1 : (S1.hom cp n deg).basis.dim = H.dim := by rw [← hsame.hom]; exact hkeep.dim
  have c2 : (S1.hom cp n deg).basis.coords = ⟨H.dim, identityCols H.dim⟩ := by
    rw [← hsame.hom]; exact (hkeep.coords h0).2.1
  unfold computeHigher at h5
  dsimp only at h5
  rw [if_neg (by rw [c1]; exact h0), bind_ok] at h5
  obtain ⟨tot, h7, h8⟩ := h5
  rw [if_pos hn] at h8
  cases h8
  dsimp only [upd]
  rw [if_pos ⟨rfl, rfl, rfl⟩]
  rw [c2, addOutputHigher_reps h4] at h7
  exact h7

/-- One page, at the first position of a sequence. -/
theorem pageHigher_at {N cp n deg : ℕ} (hcp : 2 ≤ cp) (hcpN : cp ≤ N) (hn : n < cp) (hnN : n < N)
    (hdeg : deg < E.rows) {S S' : SSt α} (h : pageHigher rnd E N S cp = .ok S') :
    ∃ S1 S2, pageSequence rnd E N cp S1 (n, deg) = .ok S2 ∧
      (∀ b c, S1.hom (cp - 1) b c = S.hom (cp - 1) b c) ∧ (∀ b c, S1.reps (cp - 1) b c = S.reps (cp - 1) b c) ∧
      (∀ b c, S1.im (cp - 1) b c = S.im (cp - 1) b c) ∧
      S'.hom cp n deg = S2.hom cp n deg ∧ S'.im cp n deg = S2.im cp n deg ∧
      S'.reps cp n deg = S2.reps cp n deg := by
  have hl : ∀ s ∈ pageStarts E.rows cp, s.1 < cp := fun s hs => (mem_pageStarts.mp hs).1
  have hs : (n, deg) ∈ pageStarts E.rows cp := mem_pageStarts.2 ⟨by dsimp only; omega, hdeg⟩
  obtain ⟨j, hj⟩ := List.mem_iff_getElem?.1 hs
  unfold pageHigher at h
  obtain ⟨S1, S2, hb, hst, ha⟩ := foldlM_ok_split h hj
  have hS1 := fun b c => pageHigher_frame hcp hcpN (fun s hs => hl s (List.mem_of_mem_take hs)) hb (cp - 1) b c
        (fun h => by omega)
  have hR1 : ∀ b c, S1.reps (cp - 1) b c = S.reps (cp - 1) b c := by
    intro b c
    refine foldlM_ok_inv (fun T => T.reps (cp - 1) b c = S.reps (cp - 1) b c) ?_ hb rfl
    intro T x T' _ hT hI
    rw [pageSequence_reps hT (by rintro ⟨hc, -⟩; omega)]; exact hI
  have hnot : (n, deg) ∉ ((pageStarts E.rows cp).drop (j + 1)).flatMap fun s => sweep cp N N s.1 s.2 := by
    intro hmem
    obtain ⟨s', hs', hm'⟩ := List.mem_flatMap.mp hmem
    have hsl' := hl s' (List.mem_of_mem_drop hs')
    have := ((mem_sweep_iff hcp hsl' (lt_of_lt_of_le hsl' hcpN)).mp hm').2
    rw [Nat.mod_eq_of_lt (by omega), Nat.div_eq_of_lt (by omega), Nat.zero_mul, Nat.add_zero] at this
    subst this
    have hnd := pageStarts_nodup E.rows cp
    obtain ⟨k, hk⟩ := List.mem_iff_getElem?.mp hs'
    rw [List.getElem?_drop] at hk
    have := (List.getElem?_inj (List.getElem?_eq_some_iff.mp hj).1 hnd).mp (hj.trans hk.symm)
    omega
  obtain ⟨a1, a2, -⟩ := pageHigher_frame hcp hcpN (fun s hs => hl s (List.mem_of_mem_drop hs)) ha cp n deg
    (fun _ => hnot)
  have hR2 : S'.reps cp n deg = S2.reps cp n deg := by
    refine foldlM_ok_inv (fun T => T.reps cp n deg = S2.reps cp n deg) ?_ ha rfl
    intro T x T' hx hT hI
    rw [pageSequence_reps hT (by
      rintro ⟨-, hc⟩; exact hnot (List.mem_flatMap.2 ⟨x, hx, hc⟩))]
    exact hI
  exact ⟨S1, S2, hst, fun b c => (hS1 b c).1, hR1, fun b c => (hS1 b c).2.1, a1, a2, hR2⟩

/-- A position of the first two columns through one page. -/
theorem pageHigher_kept {N cp n deg : ℕ} (hcp : 2 ≤ cp) (hcpN : cp ≤ N) (hn : n < cp) (hnN : n < N)
    (hdeg : deg < E.rows) {S S' : SSt α}
    (hz : ∀ x ∈ sweep cp N N n deg, cp ≤ x.1 → (S.hom (cp - 1) x.1 x.2).basis.dim = 0) {H : Basis α}
    (hdim : H.dim = H.barcode.length) (hbars : ∀ b ∈ H.barcode, b.1 < b.2)
    (hsort : H.barcode.Pairwise (barLE rnd))
    (e1 : (S.hom (cp - 1) n deg).basis.barcode = H.barcode)
    (e2 : (S.hom (cp - 1) n deg).basis.dim = H.dim)
    (e3 : (S.hom (cp - 1) n deg).basis.flat = true → H.barcode = [])
    (h : pageHigher rnd E N S cp = .ok S') :
    KeptPage S' n deg cp H ∧ (∀ Q, StableRep H.dim Q → H.dim ≠ 0 → Q (S.reps (cp - 1) n deg) →
      Q (S'.reps cp n deg)) ∧ (H.dim ≠ 0 → Summed H.dim (S'.reps cp n deg)) := by
  obtain ⟨S1, S2, hst, hS1, hR1, -, a1, a2, hR2⟩ := pageHigher_at hcp hcpN hn hnN hdeg h
  obtain ⟨k1, k2, k3⟩ := pageSequence_first hcp (by omega) hnN (by intro x hx h2; rw [hS1]; exact hz x hx h2)
    hdim hbars hsort (by rw [hS1]; exact e1) (by rw [hS1]; exact e2) (by rw [hS1]; exact e3) hst
  refine ⟨⟨by rw [a1]; exact k1.bars, by rw [a1]; exact k1.dim, by rw [a1]; exact k1.coords,
    by rw [a2]; exact k1.im⟩, fun Q hQ h0 hq => ?_, fun h0 => by rw [hR2]; exact k3 h0⟩
  rw [hR2]
  exact k2 Q hQ h0 (by rw [hR1]; exact hq)

/-- A position of the first two columns through all pages. -/
theorem allPages_kept {N n deg : ℕ} (hNp : E.noPages ≤ N + 1) (h2 : 2 ≤ E.noPages) (hn : n ≤ 1) (hnN : n < N)
    (hdeg : deg < E.rows) (hz : ∀ n deg, 2 ≤ n → E.firstBars deg n = []) {S : SSt α}
    (h : allPages rnd E N = .ok S) :
    ∃ S0 S1, pageOneRow rnd E N S0 deg = .ok S1 ∧ S.hom 1 n deg = S1.hom 1 n deg ∧
      S.im 1 n deg = S1.im 1 n deg ∧
      ((S1.hom 1 n deg).basis.dim = (S1.hom 1 n deg).basis.barcode.length →
        (∀ b ∈ (S1.hom 1 n deg).basis.barcode, b.1 < b.2) →
        (S1.hom 1 n deg).basis.barcode.Pairwise (barLE rnd) →
        ((S1.hom 1 n deg).basis.flat = true → (S1.hom 1 n deg).basis.barcode = []) →
        (∀ k, 2 ≤ k → k < E.noPages → KeptPage S n deg k (S1.hom 1 n deg).basis) ∧
        (∀ Q, StableRep (S1.hom 1 n deg).basis.dim Q → (S1.hom 1 n deg).basis.dim ≠ 0 →
          Q (S1.reps 1 n deg) → Q (S.reps (E.noPages - 1) n deg)) ∧
        (3 ≤ E.noPages → (S1.hom 1 n deg).basis.dim ≠ 0 →
          Summed (S1.hom 1 n deg).basis.dim (S.reps (E.noPages - 1) n deg))) := by
  unfold allPages at h
  rw [bind_ok] at h
  obtain ⟨T, h3, h4⟩ := h
  obtain ⟨S0, S1, -, t2, t3⟩ := foldlM_ok_split h3 (i := deg) (x := deg)
    (by rw [List.getElem?_eq_getElem (by simpa using hdeg)]; simp)
  have hrow : T.hom 1 n deg = S1.hom 1 n deg ∧ T.im 1 n deg = S1.im 1 n deg ∧
      T.reps 1 n deg = S1.reps 1 n deg := by
    refine foldlM_ok_inv (fun T => T.hom 1 n deg = S1.hom 1 n deg ∧ T.im 1 n deg = S1.im 1 n deg ∧
      T.reps 1 n deg = S1.reps 1 n deg) ?_ t3 ⟨rfl, rfl, rfl⟩
    intro T d T' hd hT hI
    obtain ⟨_, _, _, -, -, -, q⟩ := pageOneRow_written hT
    have hdne : deg ≠ d := by
      rintro rfl
      rw [List.mem_iff_getElem?] at hd
      obtain ⟨i, hi⟩ := hd
      rw [List.getElem?_drop, List.getElem?_eq_some_iff] at hi
      obtain ⟨_, hi⟩ := hi
      simp at hi
      omega
    have := q.old 1 n deg (by
      rintro ⟨-, hm⟩
      obtain ⟨_, -, hm⟩ := List.mem_map.1 hm
      exact hdne (congrArg Prod.snd hm).symm)
    exact ⟨this.1.trans hI.1, this.2.1.trans hI.2.1,
      (pageOneRow_reps hT (fun hc => hdne hc.2)).trans hI.2.2⟩
  have hcps : ∀ cp ∈ (List.range (E.noPages - 2)).map (· + 2), 2 ≤ cp ∧ cp ≤ N := by
    intro cp hcp
    obtain ⟨i, hi, rfl⟩ := List.mem_map.1 hcp
    have := List.mem_range.1 hi
    omega
  have hold := pageHigher_fold_old hcps (by omega) h4 (a := 1) (by
    intro h1; have := (hcps 1 h1).1; omega) n deg
  refine ⟨S0, S1, t2, hold.1.trans hrow.1, hold.2.1.trans hrow.2.1, ?_⟩
  intro d1 d2 d3 d4
  set H := (S1.hom 1 n deg).basis with hH
  -- the columns which are zero, before the higher pages
  have hz1 : ZeroColumns T := rows_zeroColumns hz h3
  have hgen : ∀ m U, ((List.range m).map (· + 2)).foldlM (pageHigher rnd E N) T = .ok U → m + 2 ≤ N + 1 →
      (∀ k, 2 ≤ k → k < m + 2 → KeptPage U n deg k H) ∧ (U.hom 1 n deg).basis = H ∧
      ZeroColumns U ∧
      (∀ Q, StableRep H.dim Q → H.dim ≠ 0 → Q (S1.reps 1 n deg) → Q (U.reps (m + 1) n deg)) ∧
      (0 < m → H.dim ≠ 0 → Summed H.dim (U.reps (m + 1) n deg)) := by
    intro m
    induction m with
    | zero =>
      intro U hU _
      cases hU
      refine ⟨fun k _ _ => by omega, by rw [hrow.1], hz1, fun Q _ _ hq => ?_, fun hc => absurd hc (by omega)⟩
      rw [hrow.2.2]; exact hq
    | succ m ih =>
      intro U hU hm
      rw [List.range_succ, List.map_append, List.foldlM_append, bind_ok] at hU
      obtain ⟨V, hV, hU⟩ := hU
      obtain ⟨i1, i2, i3, i4, -⟩ := ih V hV (by omega)
      rw [List.map_singleton, List.foldlM_cons, bind_ok] at hU
      obtain ⟨U', hU, hU'⟩ := hU
      cases hU'
      have hother := (C50_page rnd E N (m + 2) (by omega) (by omega) V U hU n deg hnN).2.2
      have hprev : (V.hom (m + 2 - 1) n deg).basis.barcode = H.barcode ∧
          (V.hom (m + 2 - 1) n deg).basis.dim = H.dim ∧
          ((V.hom (m + 2 - 1) n deg).basis.flat = true → H.barcode = []) := by
        by_cases hm0 : m = 0
        · subst hm0
          change (V.hom 1 n deg).basis.barcode = _ ∧ (V.hom 1 n deg).basis.dim = _ ∧
            ((V.hom 1 n deg).basis.flat = true → _)
          rw [i2]
          exact ⟨rfl, rfl, d4⟩
        · have k := i1 (m + 2 - 1) (by omega) (by omega)
          refine ⟨k.bars, k.dim, fun hf => ?_⟩
          by_contra hne
          have := (k.coords (by rw [d1]; exact fun e => hne (List.length_eq_zero_iff.1 e))).1
          rw [this] at hf; cases hf
      obtain ⟨k1, k2, k3⟩ := pageHigher_kept (cp := m + 2) (by omega) (by omega) (by omega) hnN hdeg
        (fun x _ hx => (i3 _ x.1 x.2 (by omega)).1) d1 d2 d3 hprev.1 hprev.2.1 hprev.2.2 hU
      refine ⟨fun k hk1 hk2 => ?_, ?_, ?_, fun Q hQ h0 hq => ?_, fun _ h0 => k3 h0⟩
      · by_cases hkm : k = m + 2
        · subst hkm; exact k1
        · obtain ⟨o1, o2, -⟩ := hother k n deg hkm
          have := i1 k hk1 (by omega)
          exact ⟨by rw [o1]; exact this.bars, by rw [o1]; exact this.dim, by rw [o1]; exact this.coords,
            by rw [o2]; exact this.im⟩
      · rw [(hother 1 n deg (by omega)).1, i2]
      · exact pages_zeroColumns (cps := [m + 2]) (N := N) (E := E) (rnd := rnd)
          (by intro cp hc; rw [List.mem_singleton] at hc; omega)
          (by rw [List.foldlM_cons, bind_ok]; exact ⟨U, hU, rfl⟩) i3
      · exact k2 Q hQ h0 (i4 Q hQ h0 hq)
  obtain ⟨g1, -, -, g4, g5⟩ := hgen (E.noPages - 2) S h4 (by omega)
  rw [show E.noPages - 2 + 1 = E.noPages - 1 from by omega] at g4 g5
  exact ⟨fun k hk1 hk2 => g1 k hk1 (by omega), g4, fun h3 => g5 (by omega)⟩

/-- The first page, and the pages after it. -/
theorem allPages_rows {N : ℕ} {S : SSt α} (h : allPages rnd E N = .ok S) :
    ∃ T, ((List.range (E.noPages - 2)).map (· + 2)).foldlM (pageHigher rnd E N) T = .ok S ∧
      ∀ deg < E.rows, ∃ S0 S1, pageOneRow rnd E N S0 deg = .ok S1 ∧ ∀ n, T.hom 1 n deg = S1.hom 1 n deg ∧
        T.im 1 n deg = S1.im 1 n deg ∧ T.reps 1 n deg = S1.reps 1 n deg := by
  unfold allPages at h
  rw [bind_ok] at h
  obtain ⟨T, h3, h4⟩ := h
  refine ⟨T, h4, fun deg hdeg => ?_⟩
  obtain ⟨S0, S1, -, t2, t3⟩ := foldlM_ok_split h3 (i := deg) (x := deg)
    (by rw [List.getElem?_eq_getElem (by simpa using hdeg)]; simp)
  refine ⟨S0, S1, t2, fun n => ?_⟩
  refine foldlM_ok_inv (fun T => T.hom 1 n deg = S1.hom 1 n deg ∧ T.im 1 n deg = S1.im 1 n deg ∧
    T.reps 1 n deg = S1.reps 1 n deg) ?_ t3 ⟨rfl, rfl, rfl⟩
  intro T d T' hd hT hI
  obtain ⟨_, _, _, -, -, -, q⟩ := pageOneRow_written hT
  have hdne : deg ≠ d := by
    rintro rfl
    rw [List.mem_iff_getElem?] at hd
    obtain ⟨i, hi⟩ := hd
    rw [List.getElem?_drop, List.getElem?_eq_some_iff] at hi
    obtain ⟨_, hi⟩ := hi
    simp at hi
    omega
  have := q.old 1 n deg (by
    rintro ⟨-, hm⟩
    obtain ⟨_, -, hm⟩ := List.mem_map.1 hm
    exact hdne (congrArg Prod.snd hm).symm)
  exact ⟨this.1.trans hI.1, this.2.1.trans hI.2.1,
    (pageOneRow_reps hT (fun hc => hdne hc.2)).trans hI.2.2⟩

theorem pageHigher_reps {N cp : ℕ} {S S' : SSt α} (h : pageHigher rnd E N S cp = .ok S') {a b c : ℕ}
    (hne : a ≠ cp) : S'.reps a b c = S.reps a b c := by
  unfold pageHigher at h
  refine foldlM_ok_inv (fun T => T.reps a b c = S.reps a b c) ?_ h rfl
  intro T x T' _ hT hI
  rw [pageSequence_reps hT (by rintro ⟨hc, -⟩; exact hne hc)]; exact hI

/-- Pages on which a position is alone in its sequence. -/
theorem pages_kept {N n deg k0 : ℕ} (hk0 : 1 ≤ k0) (hn : n ≤ k0) (hnN : n < N) (hdeg : deg < E.rows)
    (hv : deg < k0) {T : SSt α} {H : Basis α} (hH : (T.hom k0 n deg).basis = H)
    (d1 : H.dim = H.barcode.length) (d2 : ∀ b ∈ H.barcode, b.1 < b.2)
    (d3 : H.barcode.Pairwise (barLE rnd)) (d4 : H.flat = true → H.barcode = []) (m : ℕ) :
    ∀ U, ((List.range m).map (· + (k0 + 1))).foldlM (pageHigher rnd E N) T = .ok U → k0 + m ≤ N →
      (∀ k, k0 < k → k ≤ k0 + m → KeptPage U n deg k H) ∧
      (∀ k ≤ k0, ∀ b c, b < N → U.hom k b c = T.hom k b c ∧ U.im k b c = T.im k b c ∧
        U.reps k b c = T.reps k b c) ∧
      (∀ Q, StableRep H.dim Q → H.dim ≠ 0 → Q (T.reps k0 n deg) → Q (U.reps (k0 + m) n deg)) ∧
      (0 < m → H.dim ≠ 0 → Summed H.dim (U.reps (k0 + m) n deg)) := by
  induction m with
  | zero =>
    intro U hU _
    cases hU
    exact ⟨fun k _ _ => by omega, fun k _ b c _ => ⟨rfl, rfl, rfl⟩, fun Q _ _ hq => hq, fun hc => absurd hc (by omega)⟩
  | succ m ih =>
    intro U hU hm
    rw [List.range_succ, List.map_append, List.foldlM_append, bind_ok] at hU
    obtain ⟨V, hV, hU⟩ := hU
    obtain ⟨i1, i2, i4, -⟩ := ih V hV (by omega)
    rw [List.map_singleton, List.foldlM_cons, bind_ok] at hU
    obtain ⟨U', hU, hU'⟩ := hU
    cases hU'
    have hother := fun b (hb : b < N) => (C50_page rnd E N (m + (k0 + 1)) (by omega) (by omega) V U hU b deg hb).2.2
    have hprev : (V.hom (m + (k0 + 1) - 1) n deg).basis.barcode = H.barcode ∧
        (V.hom (m + (k0 + 1) - 1) n deg).basis.dim = H.dim ∧
        ((V.hom (m + (k0 + 1) - 1) n deg).basis.flat = true → H.barcode = []) := by
      by_cases hm0 : m = 0
      · subst hm0
        rw [show 0 + (k0 + 1) - 1 = k0 by omega, (i2 k0 le_rfl n deg hnN).1, hH]
        exact ⟨rfl, rfl, d4⟩
      · have k := i1 (m + (k0 + 1) - 1) (by omega) (by omega)
        refine ⟨k.bars, k.dim, fun hf => ?_⟩
        by_contra hne
        have := (k.coords (by rw [d1]; exact fun e => hne (List.length_eq_zero_iff.1 e))).1
        rw [this] at hf; cases hf
    obtain ⟨k1, k2, k3⟩ := pageHigher_kept (cp := m + (k0 + 1)) (by omega) (by omega) (by omega) hnN hdeg
      (fun x hx hcp => by
        exfalso
        obtain ⟨i, hi⟩ := List.mem_iff_getElem?.1 hx
        rw [sweep_get (by omega) N n deg i hnN (by omega)] at hi
        split at hi
        · next hc =>
          obtain rfl := Option.some.inj hi
          have hi0 : i = 0 := by
            by_contra h0
            have : m + (k0 + 1) - 1 ≤ i * (m + (k0 + 1) - 1) := Nat.le_mul_of_pos_left _ (by omega)
            omega
          subst hi0
          dsimp only at hcp
          omega
        · cases hi) d1 d2 d3 hprev.1 hprev.2.1 hprev.2.2 hU
    rw [show m + (k0 + 1) = k0 + (m + 1) by omega] at k1 k2 k3 hU
    refine ⟨fun k hk1 hk2 => ?_, fun k hk b c hb => ?_, fun Q hQ h0 hq => ?_, fun _ h0 => k3 h0⟩
    · by_cases hkm : k = k0 + (m + 1)
      · subst hkm; exact k1
      · obtain ⟨o1, o2, -⟩ := hother n hnN k n deg (by omega)
        have := i1 k hk1 (by omega)
        exact ⟨by rw [o1]; exact this.bars, by rw [o1]; exact this.dim, by rw [o1]; exact this.coords,
          by rw [o2]; exact this.im⟩
    · obtain ⟨o1, o2, -⟩ := hother n hnN k b c (by omega)
      obtain ⟨p1, p2, p3⟩ := i2 k hk b c hb
      exact ⟨o1.trans p1, o2.trans p2, (pageHigher_reps hU (by omega)).trans p3⟩
    · refine k2 Q hQ h0 ?_
      rw [show k0 + (m + 1) - 1 = k0 + m by omega]
      exact i4 Q hQ h0 hq

end

end Permaviss
