import Verif.Lemmas.Shared
import Verif.Props.Strip

/-!
# C91: runs in the same process

The prime read by `minus` is shared by all spectral sequences of a process (`Spec/Process`).
-/

namespace Permaviss

section

variable {K : Type} [Field K] [LinearOrder K] [FloorRing K]

/-- **C91, part.** Whatever happens in the process, a run of `create_MV_ss` gives the result of the function, if no
spectral sequence for another prime is constructed between its own construction and its last read.  Missing: threads
with different primes, see `C91_violated_threads`. -/
theorem C91_isolated_partial (pdist : List (List K) → List (List K)) (argsort : List K → List ℕ) (rnd : K → K)
    (maxR : K) (maxDim maxDiv : ℕ) (overlap : K) (dim : ℕ) (cloud : List (List K)) {h : Constructions} {c p : ℕ}
    {τ : ℕ → ℕ → ℕ → ℕ} (hr : IsRun h maxDim c p τ)
    (iso : ∀ x ∈ h, c < x.1 → (∃ deg n idx, IsRead maxDim deg n idx ∧ x.1 < τ deg n idx) → x.2 = p) :
    createMVssAt pdist argsort rnd maxR maxDim maxDiv overlap dim cloud p (fun deg n idx => h.attrAt (τ deg n idx)) =
      createMVss pdist argsort rnd maxR maxDim maxDiv overlap dim cloud p := by
  refine bind_congr_ok fun E hE => bind_congr_ok fun S _ => ?_
  have e := persistentListAt_eq rnd E S (q := fun deg n idx => h.attrAt (τ deg n idx)) (fun d n i hi => by
    rw [(createEnv_p hE).2] at hi
    rw [(createEnv_p hE).1]
    exact Constructions.attrAt_eq hr.ordered hr.constructed (hr.after d n i hi) fun x hx h1 h2 =>
      iso x hx h1 ⟨d, n, i, hi, h2⟩) E.spxNumber.length
  exact congrArg (fun x => x >>= fun ph => pure ({ env := E, pages := S, persistentHomology := ph } : MVOut K)) e

/-- **C91, calls one after the other.** If every other spectral sequence of the process is constructed before this one
or after its last read, it has no influence, whatever its prime. -/
theorem C91_sequential (pdist : List (List K) → List (List K)) (argsort : List K → List ℕ) (rnd : K → K)
    (maxR : K) (maxDim maxDiv : ℕ) (overlap : K) (dim : ℕ) (cloud : List (List K)) {h : Constructions} {c p : ℕ}
    {τ : ℕ → ℕ → ℕ → ℕ} (hr : IsRun h maxDim c p τ)
    (hnext : ∀ x ∈ h, c < x.1 → ∀ deg n idx, IsRead maxDim deg n idx → τ deg n idx < x.1) :
    createMVssAt pdist argsort rnd maxR maxDim maxDiv overlap dim cloud p (fun deg n idx => h.attrAt (τ deg n idx)) =
      createMVss pdist argsort rnd maxR maxDim maxDiv overlap dim cloud p :=
  C91_isolated_partial pdist argsort rnd maxR maxDim maxDiv overlap dim cloud hr
    fun x hx hcx ⟨deg, n, idx, hi, ht⟩ => absurd (hnext x hx hcx deg n idx hi) (Nat.lt_asymm ht)

/-- **C91, one prime.** If all spectral sequences of the process are constructed for the same prime, threads may
interleave in any way. -/
theorem C91_same_prime (pdist : List (List K) → List (List K)) (argsort : List K → List ℕ) (rnd : K → K)
    (maxR : K) (maxDim maxDiv : ℕ) (overlap : K) (dim : ℕ) (cloud : List (List K)) {h : Constructions} {c p : ℕ}
    {τ : ℕ → ℕ → ℕ → ℕ} (hr : IsRun h maxDim c p τ) (hp : ∀ x ∈ h, x.2 = p) :
    createMVssAt pdist argsort rnd maxR maxDim maxDiv overlap dim cloud p (fun deg n idx => h.attrAt (τ deg n idx)) =
      createMVss pdist argsort rnd maxR maxDim maxDiv overlap dim cloud p :=
  C91_isolated_partial pdist argsort rnd maxR maxDim maxDiv overlap dim cloud hr fun x hx _ _ => hp x hx

/-- **C91, `max_dim = 1`.** Then nothing is read: threads may interleave in any way, with any primes. -/
theorem C91_max_dim_one (pdist : List (List K) → List (List K)) (argsort : List K → List ℕ) (rnd : K → K)
    (maxR : K) (maxDiv : ℕ) (overlap : K) (dim : ℕ) (cloud : List (List K)) {h : Constructions} {c p : ℕ}
    {τ : ℕ → ℕ → ℕ → ℕ} (hr : IsRun h 1 c p τ) :
    createMVssAt pdist argsort rnd maxR 1 maxDiv overlap dim cloud p (fun deg n idx => h.attrAt (τ deg n idx)) =
      createMVss pdist argsort rnd maxR 1 maxDiv overlap dim cloud p :=
  C91_isolated_partial pdist argsort rnd maxR 1 maxDiv overlap dim cloud hr
    fun x hx hcx ⟨deg, n, idx, ⟨h1, h2, h3⟩, _⟩ => by omega

end

/-- **C91, the method `extension`, part.** Called on a spectral sequence while the last one constructed in the process
has the same prime, it gives the result of the function.  Missing: other primes, see `C91_violated_method`. -/
theorem C91_extension_partial {α : Type} [LinearOrder α] (rnd : α → α) (E : SSEnv α) (S : SSt α) {h : Constructions}
    {c n : ℕ} {τ : ℕ → ℕ} (hs : h.Pairwise fun x y => x.1 < y.1) (hc : (c, E.p) ∈ h) (hτ : ∀ idx < n, c < τ idx)
    (iso : ∀ x ∈ h, c < x.1 → (∃ idx < n, x.1 < τ idx) → x.2 = E.p) (deg : ℕ) :
    extensionAt rnd E S (fun idx => h.attrAt (τ idx)) n deg = extension rnd E S n deg :=
  extensionAt_eq rnd E S (fun idx hi => Constructions.attrAt_eq hs hc (hτ idx hi) fun x hx h1 h2 =>
    iso x hx h1 ⟨idx, hi, h2⟩) deg

/-! ## Two threads -/

/-- Times of the reads for `max_dim = 2`. -/
theorem isRead_two {deg n idx : ℕ} (h : IsRead 2 deg n idx) : deg = 1 ∧ n = 1 ∧ idx = 0 := by
  obtain ⟨h1, h2, h3⟩ := h; omega

theorem isRun_two {h : Constructions} {c p t : ℕ} (hs : h.Pairwise fun x y => x.1 < y.1) (hc : (c, p) ∈ h)
    (ht : c < t) : IsRun h 2 c p fun _ _ _ => t where
  ordered := hs
  constructed := hc
  after _ _ _ _ := ht
  reads deg n idx deg' n' idx' h1 h2 h3 := by
    have := isRead_two h1; have := isRead_two h2; omega

/-- The run on the ladder with the shared prime `q`. -/
def ladderAt (p q : ℕ) : Except PyErr (MVOut ℚ) :=
  createMVssAt ladderDist stableArgsort id 7 2 2 7 2 ladderCloud p fun _ _ _ => q

/-- **C91 is violated.** Two threads call `create_MV_ss` on the ladder (ten points, two squares), with the primes 5 and
3.  The second one constructs its spectral sequence between the construction of the first one and its call of
`extension`.  The first call raises `RuntimeError`; alone it returns the right barcodes. -/
theorem C91_violated_threads : ∃ (h : Constructions) (c c' : ℕ) (τ τ' : ℕ → ℕ → ℕ → ℕ),
    IsRun h 2 c 5 τ ∧ IsRun h 2 c' 3 τ' ∧
    createMVssAt ladderDist stableArgsort id 7 2 2 7 2 ladderCloud 5 (fun deg n idx => h.attrAt (τ deg n idx)) =
      .error .runtimeError ∧
    (ladderRun.map fun o => o.persistentHomology.map Basis.barcode) =
      .ok [[(0, 7), (0, 9/2), (0, 9/2), (0, 9/2), (0, 4), (0, 4), (0, 4), (0, 4), (0, 4), (0, 4)],
        [(9/2, 7), (5, 7), (5, 7), (5, 7)]] := by
  refine ⟨[(0, 5), (1, 3)], 0, 1, fun _ _ _ => 2, fun _ _ _ => 2, isRun_two (by decide) (by decide) (by decide),
    isRun_two (by decide) (by decide) (by decide), ?_, by decide +kernel⟩
  have h : ((ladderAt 5 3).map fun o => o.persistentHomology.map Basis.barcode) = .error .runtimeError := by
    decide +kernel
  have ha : Constructions.attrAt [(0, 5), (1, 3)] 2 = 3 := by decide
  beta_reduce
  rw [ha]
  change ladderAt 5 3 = .error .runtimeError
  cases hl : ladderAt 5 3 with
  | error e => rw [hl] at h; exact congrArg _ (by cases h; rfl)
  | ok o => rw [hl] at h; cases h

/-- **C91 is violated, the method `extension`.** After the call of `create_MV_ss` on the ladder with prime 5 has
returned, and another one with prime 3, the method `extension` of the first result raises, although it was right
before. -/
theorem C91_violated_method : ∃ (h : Constructions) (out : MVOut ℚ) (n deg t : ℕ), ladderRun = .ok out ∧
    h = [(0, 5), (1, 3)] ∧ (extension id out.env out.pages n deg).isOk = true ∧
    extensionAt id out.env out.pages (fun _ => h.attrAt t) n deg = .error .runtimeError := by
  have h : (ladderRun.map fun o => ((extension id o.env o.pages 1 0).isOk,
      (extensionAt id o.env o.pages (fun _ => 3) 1 0).map fun _ => ())) = .ok (true, .error .runtimeError) := by
    decide +kernel
  cases hl : ladderRun with
  | error e => rw [hl] at h; cases h
  | ok out =>
    rw [hl] at h
    have h' := Except.ok.inj h
    rw [Prod.mk.injEq] at h'
    refine ⟨_, out, 1, 0, 2, rfl, rfl, h'.1, ?_⟩
    have ha : Constructions.attrAt [(0, 5), (1, 3)] 2 = 3 := by decide
    rw [ha]
    cases hx : extensionAt id out.env out.pages (fun _ => 3) 1 0 with
    | error e => rw [hx] at h'; exact congrArg _ (by cases h'.2; rfl)
    | ok o => rw [hx] at h'; cases h'.2

/-- The hypotheses of `C91_isolated_partial`: another prime before, the same prime during the run. -/
example : IsRun [(0, 3), (1, 5), (2, 5)] 2 1 5 (fun _ _ _ => 4) ∧
    ∀ x ∈ [(0, 3), (1, 5), (2, 5)], 1 < x.1 → x.2 = 5 :=
  ⟨isRun_two (by decide) (by decide) (by decide), by decide⟩

/-- The hypotheses of `C91_same_prime`. -/
example : IsRun [(1, 5), (2, 5)] 2 1 5 (fun _ _ _ => 4) ∧ ∀ x ∈ [(1, 5), (2, 5)], x.2 = 5 :=
  ⟨isRun_two (by decide) (by decide) (by decide), by decide⟩

/-- The hypotheses of `C91_sequential`: the same two calls one after the other. -/
example : IsRun [(0, 5), (10, 3)] 2 0 5 (fun _ _ _ => 4) ∧
    ∀ x ∈ [(0, 5), (10, 3)], 0 < x.1 → ∀ deg n idx, IsRead 2 deg n idx → (fun _ _ _ => 4 : ℕ → ℕ → ℕ → ℕ) deg n idx < x.1 :=
  ⟨isRun_two (by decide) (by decide) (by decide), fun x hx h0 deg n idx _ => by
    simp only [List.mem_cons, List.not_mem_nil, or_false] at hx
    rcases hx with rfl | rfl
    · exact absurd h0 (by decide)
    · show 4 < 10
      decide⟩

end Permaviss
