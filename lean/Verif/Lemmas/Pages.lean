import Verif.Model.MV
import Verif.Lemmas.ExceptM
import Mathlib.Data.List.Nodup
import Mathlib.Tactic.Linarith
import Mathlib.Tactic.Ring

/-!
# What the loops over the pages read and write
-/

namespace Permaviss

theorem bind_ok {ε β γ : Type} {x : Except ε β} {f : β → Except ε γ} {y : γ} :
    (x >>= f) = .ok y ↔ ∃ a, x = .ok a ∧ f a = .ok y := by
  cases x with
  | error e => simp [bind, Except.bind]
  | ok a => simp [bind, Except.bind]

/-- An invariant of a successful fold. -/
theorem foldlM_ok_inv {ε σ γ : Type} {f : σ → γ → Except ε σ} (I : σ → Prop) {l : List γ}
    (hf : ∀ s x s', x ∈ l → f s x = .ok s' → I s → I s') :
    ∀ {s s' : σ}, l.foldlM f s = .ok s' → I s → I s' := by
  induction l with
  | nil => intro s s' h hs; simp [pure, Except.pure] at h; exact h ▸ hs
  | cons x l ih =>
    intro s s' h hs
    rw [List.foldlM_cons, bind_ok] at h
    obtain ⟨s1, h1, h2⟩ := h
    exact ih (fun s y s' hy => hf s y s' (List.mem_cons_of_mem _ hy)) h2 (hf s x s1 (by simp) h1 hs)

/-- A successful fold, split at an element. -/
theorem foldlM_ok_split {ε σ γ : Type} {f : σ → γ → Except ε σ} {l : List γ} {s s' : σ}
    (h : l.foldlM f s = .ok s') {i : ℕ} {x : γ} (hi : l[i]? = some x) :
    ∃ s1 s2, (l.take i).foldlM f s = .ok s1 ∧ f s1 x = .ok s2 ∧
      (l.drop (i + 1)).foldlM f s2 = .ok s' := by
  induction l generalizing s i with
  | nil => simp at hi
  | cons y l ih =>
    rw [List.foldlM_cons, bind_ok] at h
    obtain ⟨s1, h1, h2⟩ := h
    cases i with
    | zero =>
      simp only [List.getElem?_cons_zero, Option.some.injEq] at hi
      subst hi
      exact ⟨s, s1, rfl, h1, by simpa using h2⟩
    | succ i =>
      obtain ⟨s2, s3, h3, h4, h5⟩ := ih h2 (by simpa using hi)
      refine ⟨s2, s3, ?_, h4, by simpa using h5⟩
      rw [List.take_succ_cons, List.foldlM_cons, h1]
      exact h3

variable {α : Type} [LinearOrder α] [Zero α]

/-! ## The positions -/

/-- The positions of a sequence of differentials are `(n + i cp, deg - i (cp - 1))`. -/
theorem sweep_get {cp N : ℕ} (hcp : 2 ≤ cp) : ∀ (fuel n deg i : ℕ), n < N → N - n ≤ fuel →
    ((sweep cp N fuel n deg)[i]? = if n + i * cp < N ∧ i * (cp - 1) ≤ deg then
      some (n + i * cp, deg - i * (cp - 1)) else none) := by
  intro fuel
  induction fuel with
  | zero => intro n deg i hn hf; omega
  | succ fuel ih =>
    intro n deg i hn hf
    rw [sweep]
    cases i with
    | zero => simp [hn]
    | succ i =>
      rw [List.getElem?_cons_succ]
      have e1 : (i + 1) * cp = i * cp + cp := by ring
      have e2 : (i + 1) * (cp - 1) = i * (cp - 1) + (cp - 1) := by ring
      by_cases h : cp ≤ deg + 1 ∧ n + cp < N
      · rw [if_pos h, ih (n + cp) (deg + 1 - cp) i h.2 (by omega)]
        generalize i * cp = x at *
        generalize i * (cp - 1) = y at *
        by_cases h' : n + (i + 1) * cp < N ∧ (i + 1) * (cp - 1) ≤ deg
        · rw [if_pos h', if_pos (by constructor <;> omega)]
          simp only [Option.some.injEq, Prod.mk.injEq]
          constructor <;> omega
        · rw [if_neg h', if_neg]
          rintro ⟨h1, h2⟩
          exact h' (by constructor <;> omega)
      · rw [if_neg h]
        rw [if_neg]
        · simp
        · rintro ⟨h1, h2⟩
          apply h
          generalize i * cp = x at *
          generalize i * (cp - 1) = y at *
          constructor <;> omega

theorem mem_sweep {cp N n deg : ℕ} (hcp : 2 ≤ cp) (hn : n < N) {x : ℕ × ℕ} :
    x ∈ sweep cp N N n deg ↔ ∃ i, n + i * cp < N ∧ i * (cp - 1) ≤ deg ∧
      x = (n + i * cp, deg - i * (cp - 1)) := by
  rw [List.mem_iff_getElem?]
  refine exists_congr fun i => ?_
  rw [sweep_get hcp N n deg i hn (by omega)]
  split
  · rename_i h; simp [h, eq_comm]
  · rename_i h
    simp only [reduceCtorEq, false_iff]
    intro h'; exact h ⟨h'.1, h'.2.1⟩

theorem sweep_nodup {cp N n deg : ℕ} (hcp : 2 ≤ cp) (hn : n < N) : (sweep cp N N n deg).Nodup := by
  rw [List.nodup_iff_getElem?_ne_getElem?]
  intro i j hij hj
  rw [sweep_get hcp N n deg i hn (by omega), sweep_get hcp N n deg j hn (by omega)]
  have hj' := List.getElem?_eq_getElem hj
  rw [sweep_get hcp N n deg j hn (by omega)] at hj'
  split at hj'
  · rename_i h
    rw [if_pos h]
    split
    · simp only [ne_eq, Option.some.injEq, Prod.mk.injEq, not_and]
      intro h1
      have : i * cp < j * cp := Nat.mul_lt_mul_of_pos_right hij (by omega)
      omega
    · simp
  · exact absurd hj' (by simp)

/-- A position of page `cp` lies in the sequence that starts in column `n % cp`. -/
theorem mem_sweep_iff {cp N n deg : ℕ} (hcp : 2 ≤ cp) {s : ℕ × ℕ} (hs : s.1 < cp) (hsN : s.1 < N) :
    (n, deg) ∈ sweep cp N N s.1 s.2 ↔ n < N ∧ s = (n % cp, deg + n / cp * (cp - 1)) := by
  rw [mem_sweep hcp hsN]
  constructor
  · rintro ⟨i, h1, h2, h3⟩
    obtain ⟨h3, h4⟩ := Prod.mk.injEq .. ▸ h3
    have e1 : n / cp = i := by
      rw [h3, Nat.add_mul_div_right _ _ (by omega), Nat.div_eq_of_lt hs]; simp
    have e2 : n % cp = s.1 := by
      rw [h3, Nat.add_mul_mod_self_right, Nat.mod_eq_of_lt hs]
    refine ⟨by omega, ?_⟩
    rw [e1, e2]
    apply Prod.ext
    · rfl
    · simp only; omega
  · rintro ⟨h1, h2⟩
    refine ⟨n / cp, ?_, ?_, ?_⟩
    · rw [h2]; simp only
      rw [Nat.mod_add_div' n cp]; exact h1
    · rw [h2]; simp
    · rw [h2]; simp [Nat.mod_add_div' n cp]

theorem mem_pageStarts {rows cp : ℕ} {s : ℕ × ℕ} :
    s ∈ pageStarts rows cp ↔ s.1 < cp ∧ s.2 < rows := by
  simp only [pageStarts, List.mem_flatMap, List.mem_range, List.mem_map]
  constructor
  · rintro ⟨n, hn, d, hd, rfl⟩; exact ⟨hn, hd⟩
  · rintro ⟨h1, h2⟩; exact ⟨s.1, h1, s.2, h2, rfl⟩

theorem pageStarts_nodup (rows cp : ℕ) : (pageStarts rows cp).Nodup := by
  unfold pageStarts
  rw [List.nodup_flatMap]
  refine ⟨fun n _ => (List.nodup_range).map fun a b h => (Prod.mk.inj h).2, ?_⟩
  refine List.Pairwise.imp ?_ (List.nodup_range (n := cp))
  intro a b hab x hx hy
  simp only [List.mem_map] at hx hy
  obtain ⟨d, _, rfl⟩ := hx
  obtain ⟨d', _, h⟩ := hy
  exact hab (Prod.mk.inj h).1.symm

/-! ## What is written -/

/-- The entries other than representatives agree. -/
structure SSt.SameHom (S S' : SSt α) : Prop where
  hom : S'.hom = S.hom
  im : S'.im = S.im
  preIm : S'.preIm = S.preIm

theorem SSt.SameHom.refl (S : SSt α) : S.SameHom S := ⟨rfl, rfl, rfl⟩

theorem SSt.SameHom.trans {S S' S'' : SSt α} (h : S.SameHom S') (h' : S'.SameHom S'') :
    S.SameHom S'' := ⟨h'.hom.trans h.hom, h'.im.trans h.im, h'.preIm.trans h.preIm⟩

theorem computeTwoPage_same {E : SSEnv α} {S S' : SSt α} {n deg : ℕ}
    (h : computeTwoPage E S n deg = .ok S') : S.SameHom S' := by
  unfold computeTwoPage at h
  by_cases h0 : (S.hom 1 n deg).basis.dim = 0
  · simp only [if_pos h0] at h
    cases h; exact .refl _
  · simp only [if_neg h0] at h
    rw [bind_ok] at h
    obtain ⟨cyc, _, h⟩ := h
    rw [bind_ok] at h
    obtain ⟨C, _, h⟩ := h
    split at h
    · cases h; exact ⟨rfl, rfl, rfl⟩
    · rw [bind_ok] at h
      obtain ⟨out, _, h⟩ := h
      split at h
      · cases h
      · cases h; exact ⟨rfl, rfl, rfl⟩

theorem computeHigher_same {rnd : α → α} {E : SSEnv α} {S S' : SSt α} {n deg cp : ℕ}
    (h : computeHigher rnd E S n deg cp = .ok S') : S.SameHom S' := by
  unfold computeHigher at h
  by_cases h0 : (S.hom cp n deg).basis.dim = 0
  · simp only [if_pos h0] at h
    cases h; exact ⟨rfl, rfl, rfl⟩
  · simp only [if_neg h0] at h
    rw [bind_ok] at h
    obtain ⟨tot, _, h⟩ := h
    split at h
    · cases h; exact ⟨rfl, rfl, rfl⟩
    · rw [bind_ok] at h
      obtain ⟨tot', _, h⟩ := h
      rw [bind_ok] at h
      obtain ⟨last, _, h⟩ := h
      rw [bind_ok] at h
      obtain ⟨out, _, h⟩ := h
      split at h
      · cases h
      · cases h; exact ⟨rfl, rfl, rfl⟩

/-- `S'` has at the given positions of `page` the entries of `out`, and is `S` elsewhere. -/
structure Written (S S' : SSt α) (out : MPH α) (base : List (HomEntry α))
    (positions : List (ℕ × ℕ)) (page : ℕ) : Prop where
  new : ∀ (i : ℕ) (x : ℕ × ℕ), positions[i]? = some x → ∃ h, out.hom.getD i none = some h ∧
    S'.hom page x.1 x.2 = ⟨h, prevOf base i⟩ ∧ S'.im page x.1 x.2 = out.im.getD i none ∧
    S'.preIm page x.1 x.2 = out.preIm.getD i none
  old : ∀ a b c, ¬ (a = page ∧ (b, c) ∈ positions) → S'.hom a b c = S.hom a b c ∧
    S'.im a b c = S.im a b c ∧ S'.preIm a b c = S.preIm a b c

theorem addOutputHigher_written {S S' : SSt α} {out : MPH α} {base : List (HomEntry α)}
    {positions : List (ℕ × ℕ)} {page : ℕ} (hnd : positions.Nodup)
    (h : addOutputHigher S out base positions page = .ok S') :
    Written S S' out base positions page := by
  unfold addOutputHigher at h
  have key : ∀ (l : List (ℕ × ℕ)) (k : ℕ) (S S' : SSt α), l.Nodup →
      ((List.range' k l.length).zip l).foldlM (fun (S : SSt α) x =>
        match out.hom.getD x.1 none with
        | none => (Except.error PyErr.attributeError : Except PyErr (SSt α))
        | some h => Except.ok
          { S with
            hom := upd S.hom page x.2.1 x.2.2 ⟨h, prevOf base x.1⟩
            im := upd S.im page x.2.1 x.2.2 (out.im.getD x.1 none)
            preIm := upd S.preIm page x.2.1 x.2.2 (out.preIm.getD x.1 none) }) S = .ok S' →
      (∀ (i : ℕ) (x : ℕ × ℕ), l[i]? = some x → ∃ h, out.hom.getD (k + i) none = some h ∧
        S'.hom page x.1 x.2 = ⟨h, prevOf base (k + i)⟩ ∧
        S'.im page x.1 x.2 = out.im.getD (k + i) none ∧
        S'.preIm page x.1 x.2 = out.preIm.getD (k + i) none) ∧
      ∀ a b c, ¬ (a = page ∧ (b, c) ∈ l) → S'.hom a b c = S.hom a b c ∧
        S'.im a b c = S.im a b c ∧ S'.preIm a b c = S.preIm a b c := by
    intro l
    induction l with
    | nil =>
      intro k S S' _ h
      simp [pure, Except.pure] at h
      subst h
      simp
    | cons y l ih =>
      intro k S S' hnd h
      rw [List.length_cons, List.range'_succ, List.zip_cons_cons, List.foldlM_cons, bind_ok] at h
      obtain ⟨S1, h1, h2⟩ := h
      simp only at h1
      split at h1
      · cases h1
      rename_i hb hbe
      cases h1
      obtain ⟨h3, h4⟩ := ih (k + 1) _ _ (List.nodup_cons.mp hnd).2 h2
      refine ⟨?_, ?_⟩
      · intro i x hx
        cases i with
        | zero =>
          simp only [List.getElem?_cons_zero, Option.some.injEq] at hx
          subst hx
          obtain ⟨h5, h6, h7⟩ := h4 page y.1 y.2 (by
            rintro ⟨_, hm⟩; exact (List.nodup_cons.mp hnd).1 hm)
          exact ⟨hb, hbe, by rw [h5]; simp [upd], by rw [h6]; simp [upd], by rw [h7]; simp [upd]⟩
        | succ i =>
          have := h3 i x (by simpa using hx)
          rwa [show k + 1 + i = k + (i + 1) by omega] at this
      · intro a b c hn
        obtain ⟨h5, h6, h7⟩ := h4 a b c (by
          rintro ⟨h1, h2⟩; exact hn ⟨h1, List.mem_cons_of_mem _ h2⟩)
        have hne : ¬ (a = page ∧ b = y.1 ∧ c = y.2) := by
          rintro ⟨rfl, rfl, rfl⟩; exact hn ⟨rfl, by simp⟩
        rw [h5, h6, h7]
        simp [upd, hne]
  rw [List.range_eq_range'] at h
  obtain ⟨h1, h2⟩ := key positions 0 S S' hnd h
  exact ⟨fun i x hx => by simpa using h1 i x hx, h2⟩

theorem Written.same {S S' S'' : SSt α} {out : MPH α} {base : List (HomEntry α)}
    {positions : List (ℕ × ℕ)} {page : ℕ} (h : Written S S' out base positions page)
    (h' : S'.SameHom S'') : Written S S'' out base positions page := by
  refine ⟨fun i x hx => ?_, fun a b c hn => ?_⟩
  · rw [h'.hom, h'.im, h'.preIm]; exact h.new i x hx
  · rw [h'.hom, h'.im, h'.preIm]; exact h.old a b c hn

/-- One row of the first page. -/
theorem pageOneRow_written {rnd : α → α} {E : SSEnv α} {N deg : ℕ} {S S' : SSt α}
    (h : pageOneRow rnd E N S deg = .ok S') :
    ∃ base diffs out,
      (List.range N).mapM (fun n => basisOfBars (E.firstBars deg n)) = .ok base ∧
      (List.range (N - 1)).mapM (fun n => firstDifferential E n deg) = .ok diffs ∧
      modulePersistenceHomology rnd E.p (⟨0, []⟩ :: diffs) base = .ok out ∧
      Written S S' out (base.map fun b => ⟨b, none⟩) ((List.range N).map fun n => (n, deg)) 1 := by
  unfold pageOneRow at h
  rw [bind_ok] at h
  obtain ⟨base, h1, h⟩ := h
  rw [bind_ok] at h
  obtain ⟨diffs, h2, h⟩ := h
  rw [bind_ok] at h
  obtain ⟨out, h3, h⟩ := h
  rw [bind_ok] at h
  obtain ⟨S1, h4, h⟩ := h
  refine ⟨base, diffs, out, h1, h2, h3, (addOutputHigher_written ?_ h4).same ?_⟩
  · exact List.nodup_range.map fun a b h => (Prod.mk.inj h).1
  · exact foldlM_ok_inv (fun s => S1.SameHom s)
      (fun s n s' _ hs hI => hI.trans (computeTwoPage_same hs)) h (.refl _)

/-- One sequence of differentials of a higher page. -/
theorem pageSequence_written {rnd : α → α} {E : SSEnv α} {N cp : ℕ} (hcp : 2 ≤ cp) {S S' : SSt α}
    {s : ℕ × ℕ} (hs : s.1 < N) (h : pageSequence rnd E N cp S s = .ok S') :
    ∃ diffs out,
      (sweep cp N N s.1 s.2).tail.mapM (fun x => highDifferential rnd E S (x.1 - cp) x.2 cp) =
        .ok diffs ∧
      modulePersistenceHomology rnd E.p (⟨0, []⟩ :: diffs)
        ((sweep cp N N s.1 s.2).map fun x => (S.hom (cp - 1) x.1 x.2).basis) = .ok out ∧
      Written S S' out ((sweep cp N N s.1 s.2).map fun x => S.hom (cp - 1) x.1 x.2)
        (sweep cp N N s.1 s.2) cp := by
  unfold pageSequence at h
  simp only [] at h
  rw [bind_ok] at h
  obtain ⟨diffs, h2, h⟩ := h
  rw [bind_ok] at h
  obtain ⟨out, h3, h⟩ := h
  rw [bind_ok] at h
  obtain ⟨S1, h4, h⟩ := h
  refine ⟨diffs, out, h2, ?_, (addOutputHigher_written (sweep_nodup hcp hs) h4).same ?_⟩
  · rw [List.map_map] at h3; exact h3
  · exact foldlM_ok_inv (fun s => S1.SameHom s)
      (fun s n s' _ hs hI => hI.trans (computeHigher_same hs)) h (.refl _)

end Permaviss
