import Verif.Lemmas.IKLoop
import Verif.Lemmas.Flag

/-!
# `image_kernel`: the state after the loop
-/

namespace Permaviss

open Finset

variable {α : Type} [LinearOrder α] {E : IKEnv α}

theorem identity_ok {p : ℕ} (hp : 1 < p) (n : ℕ) : MatOK p n n ⟨n, identityCols n⟩ where
  rows := rfl
  ncols := by simp [identityCols]
  len := by
    intro c hc
    simp only [identityCols, List.mem_map, List.mem_range] at hc
    obtain ⟨j, -, rfl⟩ := hc
    simp
  red := by
    intro c hc x hx
    simp only [identityCols, List.mem_map, List.mem_range] at hc
    obtain ⟨j, -, rfl⟩ := hc
    simp only [List.mem_map, List.mem_range] at hx
    obtain ⟨i, -, rfl⟩ := hx
    split <;> omega

theorem zv_identity {p : ℕ} {n j : ℕ} (h : j < n) :
    zv p ((⟨n, identityCols n⟩ : Mat).col j) = Pi.single j 1 := by
  have hl : j < (identityCols n).length := by simpa [identityCols] using h
  unfold Mat.col
  rw [List_getD_eq_getElem _ _ hl]
  exact zv_identityCols hl

theorem init_inv [Zero α] (hE : EnvOK E) : IKInv E (fun _ => False) E.init := by
  have hp1 : 1 < E.p := hE.hp.one_lt
  have := Fact.mk hE.hp
  have hnb : ∀ bars i, ¬ BornBy (fun _ : α => False) bars i := fun bars i ⟨_, _, h⟩ => h
  have hcut : ∀ j, cutAt (fun _ : α => False) (fun _ => False) 0 j = fun _ => False :=
    fun j => cutAt_hi (by omega)
  have hpiv : ∀ j, (E.init).piv j = -2 := by
    intro j
    simp only [IK.piv, IKEnv.init, List.getD_eq_getElem?_getD, List.getElem?_replicate]
    split <;> simp
  have hrho : ∀ j, (E.init).rho j = -2 := by
    intro j
    simp only [IK.rho, IKEnv.init, List.getD_eq_getElem?_getD, List.getElem?_replicate]
    split <;> simp
  have hV : ∀ j, j < E.A.dim → E.V E.init j = E.ev (E.Tc E.init j) := by
    intro j hj
    have e : E.Tc E.init j = Pi.single j 1 := zv_identity hj
    rw [e]
    funext r
    rw [hE.ev_apply, Finset.sum_eq_single j]
    · simp; rfl
    · intro k _ hk; simp [hk]
    · intro h; exact absurd (mem_range.2 hj) h
  have hTri : ∀ j, j < E.A.dim → Tri j (E.Tc E.init j) := by
    intro j hj
    have e : E.Tc E.init j = Pi.single j 1 := zv_identity hj
    rw [e]
    refine ⟨by simp, fun l hl => ?_⟩
    by_contra hlt
    exact hl (by rw [Pi.single_eq_of_ne (by omega)])
  refine ⟨{
    sh := ⟨hE.FOK, identity_ok hp1 _, ⟨rfl, by simp [IKEnv.init], ?_, ?_⟩, by simp [IKEnv.init],
      by simp [IKEnv.init], by simp [IKEnv.init], by simp [IKEnv.init], by simp [IKEnv.init]⟩
    unborn := fun j _ => by rw [hcut]; simp [hpiv, hnb]
    pcase := fun j _ => Or.inl (hpiv j)
    alive := fun j _ r h => by rw [hpiv] at h; omega
    injLo := fun j j' h => absurd h (by omega)
    injHi := fun j j' _ _ r h => by rw [hpiv] at h; omega
    dead := fun j _ h => by rw [hpiv] at h; omega
    g1 := fun j hj => ⟨_, hTri j hj, hV j hj⟩
    g2 := fun j hj _ => ⟨hTri j hj, hV j hj⟩
    gm := fun _ j hj => hV j hj
    kcase := fun k hk => absurd hk (by simp [IKEnv.init])
    kge := fun k _ => hrho k
    kalive := fun k i h => by rw [hrho] at h; omega
    kinjLo := fun j j' h => absurd h (by omega)
    kinjHi := fun j j' _ _ r h => by rw [hrho] at h; omega
    kdead := fun k hk => absurd hk (by simp [IKEnv.init])
    ksupp := fun k hk => absurd hk (by simp [IKEnv.init])
    kker := fun k hk => absurd hk (by simp [IKEnv.init])
    cover := fun i h => absurd h.born (hnb _ _)
    disj := fun i r h => by rw [hpiv] at h; omega
    upA := fun i _ r h => by rw [hpiv] at h; omega
    kdle := by simp [IKEnv.init]
    kb := fun k hk => absurd hk (by simp [IKEnv.init])
    kbmono := fun k k' _ hk => absurd hk (by simp [IKEnv.init])
    kbs := fun k hk => absurd hk (by simp [IKEnv.init])
    db := fun j _ h => by rw [hpiv] at h; omega
    kpiv := fun k i h => by rw [hrho] at h; omega }, fun t h => h.elim⟩
  · intro c hc
    simp only [IKEnv.init, List.mem_replicate] at hc
    rw [hc.2]; simp
  · intro c hc x hx
    simp only [IKEnv.init, List.mem_replicate] at hc
    rw [hc.2, List.mem_replicate] at hx
    rw [hx.2]
    have := hE.hp.pos
    omega

/-- What is known about the state after the loop. -/
structure IKFinal (E : IKEnv α) (st : IK α) : Prop where
  sh : Shape E st
  im : ∀ j, j < E.A.dim → st.piv j = -1
  ker : ∀ k, k < st.kdim → st.rho k = -1
  gm : E.MonoDeath → ∀ j, j < E.A.dim → E.V st j = E.ev (E.Tc st j)
  g1 : ∀ j, j < E.A.dim → ∃ τ, Tri j τ ∧ E.V st j = E.ev τ
  kbs : ∀ k, k < st.kdim → ∀ b, st.kerBar[k]? = some b → ∀ i, E.Kc st k i ≠ 0 →
    BornBy (· ≤ b.1) E.A.barcode i
  rows : ∀ t, ∃ U W : Finset ℕ,
    (∀ j ∈ U, ∃ b d, E.A.barcode[j]? = some b ∧ st.imDeath[j]? = some d ∧ b.1 ≤ t ∧ t < d) ∧
    (∀ j, BornBy (· ≤ t) E.A.barcode j → j ∉ U →
      (∀ r, ActBy (· ≤ t) E.B.barcode r → E.V st j r = 0) ∧
      (E.MonoDeath → ∀ d, st.imDeath[j]? = some d → d ≤ t)) ∧
    (LinearIndependent (ZMod E.p) fun j : U => restr (ActBy (· ≤ t) E.B.barcode) (E.V st j)) ∧
    (Submodule.span (ZMod E.p) (Set.range fun j : U =>
      restr (ActBy (· ≤ t) E.B.barcode) (E.V st j)) = LinearMap.range (E.mor (· ≤ t))) ∧
    (∀ k, k ∈ W ↔ k < st.kdim ∧ ∃ b, st.kerBar[k]? = some b ∧ b.1 ≤ t ∧ t < b.2) ∧
    (LinearIndependent (ZMod E.p) fun k : W => restr (ActBy (· ≤ t) E.A.barcode) (E.Kc st k)) ∧
    (Submodule.span (ZMod E.p) (Set.range fun k : W =>
      restr (ActBy (· ≤ t) E.A.barcode) (E.Kc st k)) =
      LinearMap.range (restr (ActBy (· ≤ t) E.A.barcode)) ⊓ LinearMap.ker (E.mor (· ≤ t))) ∧
    (∀ k, k < st.kdim → ∀ b, st.kerBar[k]? = some b → b.1 ≤ t → k ∉ W →
      ∀ i, ActBy (· ≤ t) E.A.barcode i → E.Kc st k i = 0)

theorem IKInv.final (hE : EnvOK E) {st : IK α} (h : IKInv E (fun _ => True) st) : IKFinal E st := by
  classical
  have := Fact.mk hE.hp
  have hc := h.1
  have hcut : ∀ j, cutAt (fun _ : α => True) (fun _ => True) 0 j = fun _ => True :=
    fun j => cutAt_hi (by omega)
  have hna : ∀ bars i, ¬ ActBy (fun _ : α => True) bars i := fun bars i ⟨_, _, _, h⟩ => h trivial
  have him : ∀ j, j < E.A.dim → st.piv j = -1 := by
    intro j hj
    rcases hc.pcase j hj with h1 | h1 | ⟨r, h1⟩
    · exfalso
      have := (hc.unborn j hj).1 h1
      rw [hcut] at this
      obtain ⟨a, ha⟩ := hE.bar j hj
      exact this ⟨a, ha, trivial⟩
    · exact h1
    · exact absurd (hc.upA j (by omega) r h1) (hna _ _)
  have hker : ∀ k, k < st.kdim → st.rho k = -1 := by
    intro k hk
    rcases hc.kcase k hk with h1 | ⟨i, h1⟩
    · exact h1
    · have := (hc.kalive k i h1).1
      rw [hcut] at this
      exact absurd this (hna _ _)
  refine ⟨hc.sh, him, hker, hc.gm, hc.g1, hc.kbs, ?_⟩
  intro t
  obtain ⟨U, W, h1, h2, h3⟩ := h.2 t trivial
  obtain ⟨w, hw1, hw2⟩ := h1.rank
  have hS : ∀ i, ActBy (· ≤ t) E.A.barcode i → i < E.A.dim := fun i hi => by
    rw [hE.lenA]; exact hi.lt
  have hmem : ∀ i, i ∈ actSet E t ↔ ActBy (· ≤ t) E.A.barcode i := by
    intro i
    simp only [actSet, Finset.mem_filter, mem_range]
    exact ⟨fun h => h.2, fun h => ⟨hS i h, h⟩⟩
  obtain ⟨r1, r2⟩ := rank_nullity_span (E.mor (· ≤ t)) (S := ActBy (· ≤ t) E.A.barcode)
    (n := E.A.dim) hS (fun x => EnvOK.mor_act x) hmem h3
    (fun j : U => w j) (fun j => hw1 j j.2) hw2 (fun k : W => E.Kc st k) (fun k => h2.ker k k.2)
    h2.indep
  -- triangular representatives
  have hτ : ∀ j, ∃ τ : ℕ → ZMod E.p, j < E.A.dim → Tri j τ ∧ E.V st j = E.ev τ := by
    intro j
    by_cases hj : j < E.A.dim
    · obtain ⟨τ, h4⟩ := hc.g1 j hj
      exact ⟨τ, fun _ => h4⟩
    · exact ⟨0, fun h => absurd h hj⟩
  choose τ hτ using hτ
  have hmor : ∀ j ∈ U, E.mor (· ≤ t) (τ j) = restr (ActBy (· ≤ t) E.B.barcode) (E.V st j) := by
    intro j hj
    have hjn := hS j (h1.act j hj)
    funext i
    by_cases hi : ActBy (· ≤ t) E.B.barcode i
    · rw [hE.mor_eq (down_le t) (hE.tri_born (down_le t) (hτ j hjn).1 (h1.act j hj).born) i hi,
        restr_apply_pos hi, (hτ j hjn).2]
    · rw [IKEnv.mor_apply, restr_apply_neg hi, restr_apply_neg hi]
  have hspan := tri_span_all (E.mor (· ≤ t)) (S := ActBy (· ≤ t) E.A.barcode) (n := E.A.dim) hS
    (fun i hi => EnvOK.mor_single i hi) (fun x => EnvOK.mor_act x) ⊥ (U := U) τ
    (fun j hj => (hτ j (hS j (h1.act j hj))).1) (by
      intro i hi hiU
      obtain ⟨x, hx1, hx2, hx3⟩ := h1.kerv i hi hiU
      exact ⟨x, hx1, hx2, by rw [hx3]; exact Submodule.zero_mem _⟩)
  have hfam : (fun j : U => E.mor (· ≤ t) (τ j)) =
      fun j : U => restr (ActBy (· ≤ t) E.B.barcode) (E.V st j) := funext fun j => hmor j j.2
  rw [hfam] at hspan
  obtain ⟨r3, r4⟩ := r2 (fun j : U => restr (ActBy (· ≤ t) E.B.barcode) (E.V st j))
    (fun x => by have := hspan x; rwa [bot_sup_eq] at this)
    (fun j => ⟨τ j, (hmor j j.2).symm⟩)
  refine ⟨U, W, ?_, ?_, r3, r4, ?_, h2.indep, r1, ?_⟩
  · intro j hj
    have hjn := hS j (h1.act j hj)
    obtain ⟨b, hb1, hb2, -⟩ := h1.act j hj
    have hjl : j < st.imDeath.length := by rw [hc.sh.imDeath]; exact hjn
    exact ⟨b, _, hb1, List.getElem?_eq_getElem hjl, hb2,
      h1.alive j hj (him j hjn) _ (List.getElem?_eq_getElem hjl)⟩
  · intro j hb hj
    exact ⟨(h1.dead j hb hj).2, fun hm d hd => h1.deadMono hm j hb hj d hd⟩
  · intro k
    rw [h2.mem]
    unfold KAlive
    constructor
    · rintro ⟨h4, b, h5, h6, h7⟩
      exact ⟨h4, b, h5, h6, h7 (hker k h4)⟩
    · rintro ⟨h4, b, h5, h6, h7⟩
      exact ⟨h4, b, h5, h6, fun _ => h7⟩
  · intro k hk b hb hbt hkW
    exact (h2.dead k hk b hb hbt hkW).2

/-- The main loop of `image_kernel`, in the absolute case, succeeds. -/
theorem ikLoop_final [Zero α] (hE : EnvOK E) (hfull : E.full = true) :
    ∃ st, ikLoop E E.radii E.init = .ok st ∧ IKFinal E st := by
  obtain ⟨st, h1, h2⟩ := ikLoop_spec hE hfull E.radii (fun _ => False) E.init (fun _ _ _ h => h)
    (init_inv hE) (npUnique_strict _) (fun _ _ h => h) (by
      intro b hb
      have : ∀ y, (y = b.1 ∨ y = b.2) → y ∈ E.radii := by
        intro y hy
        unfold IKEnv.radii Basis.changesList
        rw [mem_npUnique, List.mem_append, mem_npUnique, mem_npUnique]
        simp only [List.mem_flatMap]
        rcases List.mem_append.1 hb with h | h
        · left; exact ⟨b, h, by simpa using hy⟩
        · right; exact ⟨b, h, by simpa using hy⟩
      exact ⟨Or.inr (this _ (Or.inl rfl)), Or.inr (this _ (Or.inr rfl))⟩)
  exact ⟨st, h1, h2.final hE⟩

end Permaviss
