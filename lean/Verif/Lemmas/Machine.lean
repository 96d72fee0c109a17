import Verif.Model.Machine
import Verif.Lemmas.PHTrace
import Verif.Lemmas.Pages
import Verif.Lemmas.Diff
import Verif.Props.GaussBarcodes

/-!
# Numbers of bounded precision suffice for small primes
-/

namespace Permaviss

variable {o : Ops} {M : Int} {p : ℕ}

theorem exactUpTo_rounded {fl : Int → Int} (h : ∀ x, |x| ≤ M → fl x = x) : (Ops.rounded fl).ExactUpTo M where
  add a b _ _ hab := h _ hab
  mul a b _ _ hab := h _ hab
  mod a b ha hb hb0 := by
    refine h _ (le_trans ?_ hb)
    rcases lt_or_gt_of_ne hb0 with hn | hn
    · have h1 := Int.fmod_nonneg_of_pos (-a) (show 0 < -b by omega)
      have h2 := Int.fmod_lt_of_pos (-a) (show 0 < -b by omega)
      rw [Int.neg_fmod_neg] at h1 h2
      rw [abs_of_nonpos (by omega), abs_of_neg hn]; omega
    · have h1 := Int.fmod_nonneg_of_pos a hn
      have h2 := Int.fmod_lt_of_pos a hn
      rw [abs_of_nonneg h1, abs_of_pos hn]; omega
  div a b ha hb hb0 := by
    refine h _ (le_trans ?_ ha)
    have key : ∀ a b : Int, 0 < b → |Int.fdiv a b| ≤ |a| := by
      intro a b hb
      rw [Int.fdiv_eq_ediv_of_nonneg a hb.le]
      exact Int.abs_ediv_le_abs a b
    rcases lt_or_gt_of_ne hb0 with hn | hn
    · have := key (-a) (-b) (by omega)
      rwa [Int.neg_fdiv_neg, abs_neg] at this
    · exact key a b hn

theorem exactUpTo_int64 : Ops.int64.ExactUpTo (2 ^ 63 - 1) := by
  refine exactUpTo_rounded fun x hx => ?_
  have := abs_le.1 hx
  exact Int.bmod_eq_of_le (by norm_num; omega) (by norm_num; omega)

theorem roundDouble_exact {x : Int} (hx : |x| ≤ 2 ^ 53) : roundDouble x = x := by
  have hn : x.natAbs ≤ 2 ^ 53 := by
    have : ((x.natAbs : ℕ) : Int) = |x| := Int.natCast_natAbs x
    have h2 : ((x.natAbs : ℕ) : Int) ≤ ((2 ^ 53 : ℕ) : Int) := by rw [this]; exact_mod_cast hx
    exact_mod_cast h2
  have key : ∀ u : Int, 0 < u → x % u = 0 → (if 2 * (x % u) < u then x / u else if u < 2 * (x % u) then x / u + 1
      else if x / u % 2 = 0 then x / u else x / u + 1) * u = x := by
    intro u hu h
    rw [h, if_pos (by omega)]
    exact Int.ediv_mul_cancel (Int.dvd_of_emod_eq_zero h)
  unfold roundDouble
  dsimp only
  refine key _ (by positivity) ?_
  rcases Nat.lt_or_ge x.natAbs (2 ^ 53) with h | h
  · have hl : Nat.log2 x.natAbs - 52 = 0 := by
      rcases Nat.eq_zero_or_pos x.natAbs with h0 | h0
      · rw [h0]; rfl
      · have := (Nat.log2_lt (by omega)).2 h
        omega
    rw [hl, pow_zero, Int.emod_one]
  · have he : x.natAbs = 2 ^ 53 := le_antisymm hn h
    have hl : Nat.log2 x.natAbs - 52 = 1 := by rw [he, Nat.log2_two_pow]
    rw [hl, pow_one]
    omega

theorem exactUpTo_double : Ops.double.ExactUpTo (2 ^ 53) := exactUpTo_rounded fun _ hx => roundDouble_exact hx

theorem fmod_natCast (x : Int) (p : ℕ) : Int.fmod x (p : Int) = x % (p : Int) :=
  Int.fmod_eq_emod_of_nonneg x (by positivity)

section

variable (ho : o.ExactUpTo M) (hp : 2 ≤ p) (hM : (p : Int) * p ≤ M)

include ho hp hM

theorem p_le_M : 2 * (p : Int) ≤ M := by
  have : (2 : Int) ≤ p := by exact_mod_cast hp
  nlinarith

theorem mod_eq {x : Int} (hx : |x| ≤ M) : o.mod x p = x % (p : Int) := by
  have := p_le_M ho hp hM
  have h2 : (2 : Int) ≤ p := by exact_mod_cast hp
  rw [ho.mod x p hx (by rw [abs_of_nonneg (by omega)]; omega) (by omega), fmod_natCast]

theorem invLoopO_eq : ∀ (fuel : ℕ) (a b x0 x1 : Int), 0 ≤ a → a ≤ p → 0 < b → b ≤ p →
    a * |x0| + b * |x1| ≤ p → |x0| ≤ p → |x1| ≤ p →
    invLoopO o fuel a b x0 x1 = invLoop fuel a b x0 x1 ∧
      ∀ r, invLoop fuel a b x0 x1 = some r → |r.2| ≤ p := by
  intro fuel
  induction fuel with
  | zero => intros; exact ⟨rfl, fun r hr => by cases hr⟩
  | succ fuel ih =>
    intro a b x0 x1 ha hap hb hbp hinv hx0 hx1
    have hpM := p_le_M ho hp hM
    unfold invLoopO invLoop
    by_cases h0 : a = 0
    · rw [if_pos h0, if_pos h0]
      refine ⟨rfl, fun r hr => ?_⟩
      obtain rfl := Option.some.inj hr
      exact hx0
    rw [if_neg h0, if_neg h0]
    have ha1 : 1 ≤ a := by omega
    have e1 : o.mod b a = Int.fmod b a :=
      ho.mod b a (by rw [abs_of_pos hb]; omega) (by rw [abs_of_nonneg ha]; omega) h0
    have e2 : o.div b a = Int.fdiv b a :=
      ho.div b a (by rw [abs_of_pos hb]; omega) (by rw [abs_of_nonneg ha]; omega) h0
    have hfd : Int.fdiv b a = b / a := Int.fdiv_eq_ediv_of_nonneg b ha
    have hfm : Int.fmod b a = b % a := Int.fmod_eq_emod_of_nonneg b ha
    have hq0 : 0 ≤ b / a := Int.ediv_nonneg hb.le ha
    have hdm := Int.emod_add_mul_ediv b a
    have hm0 := Int.emod_nonneg b h0
    have hma := Int.emod_lt_of_pos b (show 0 < a by omega)
    have hqb : b / a ≤ b := Int.ediv_le_self a hb.le
    have hx1n := abs_nonneg x1
    have hx0n := abs_nonneg x0
    have hqx : |b / a * x1| ≤ p := by
      rw [abs_mul, abs_of_nonneg hq0]
      nlinarith [mul_nonneg ha hx0n, mul_le_mul_of_nonneg_right hqb hx1n]
    have hnew : a * |x0 - b / a * x1| ≤ a * |x0| + a * (b / a) * |x1| := by
      have : |x0 - b / a * x1| ≤ |x0| + b / a * |x1| := by
        refine (abs_sub x0 _).trans ?_
        rw [abs_mul, abs_of_nonneg hq0]
      nlinarith
    have hinv' : b % a * |x1| + a * |x0 - b / a * x1| ≤ p := by nlinarith
    have hx' : |x0 - b / a * x1| ≤ p := by
      nlinarith [mul_nonneg hm0 hx1n, abs_nonneg (x0 - b / a * x1)]
    have e3 : o.mul (Int.fdiv b a) x1 = b / a * x1 := by
      rw [hfd]
      exact ho.mul _ _ (by rw [abs_of_nonneg hq0]; omega) (by omega) (by omega)
    have e4 : o.add x0 (-(b / a * x1)) = x0 - b / a * x1 := by
      rw [ho.add x0 _ (by omega) (by rw [abs_neg]; omega) (by rw [← sub_eq_add_neg]; omega), sub_eq_add_neg]
    rw [e1, e2, e3, e4, hfm, hfd]
    exact ih _ _ _ _ hm0 (by omega) (by omega) hap hinv' hx1 hx'

/-- Inverses are computed exactly. -/
theorem invModPO_eq {a : Int} (ha : 0 ≤ a) (hap : a ≤ p) : invModPO o a p = invModP a p ∧
    ∀ r, invModP a p = .ok r → 0 ≤ r ∧ r ≤ p := by
  have hpM := p_le_M ho hp hM
  have h2 : (2 : Int) ≤ p := by exact_mod_cast hp
  obtain ⟨e1, e2⟩ := invLoopO_eq ho hp hM (a.natAbs + 1) a p 0 1 ha hap (by omega) le_rfl (by simp) (by simp)
    (by simp; omega)
  unfold invModPO invModP
  rw [mod_eq ho hp hM (by rw [abs_of_nonneg ha]; omega), fmod_natCast, e1]
  by_cases h0 : a % (p : Int) = 0
  · rw [if_pos h0, if_pos h0]
    exact ⟨rfl, fun r hr => by cases hr⟩
  rw [if_neg h0, if_neg h0]
  cases hl : invLoop (a.natAbs + 1) a p 0 1 with
  | none => exact ⟨rfl, fun r hr => by cases hr⟩
  | some bx =>
    have hb := e2 bx hl
    obtain ⟨b, x0⟩ := bx
    dsimp only at hb ⊢
    by_cases hb1 : b ≠ 1
    · rw [if_pos hb1, if_pos hb1]; exact ⟨rfl, fun r hr => by cases hr⟩
    rw [if_neg hb1, if_neg hb1]
    have hb' := abs_le.1 hb
    by_cases hx : x0 < 0
    · rw [if_pos hx, if_pos hx, ho.add x0 p (by omega) (by rw [abs_of_pos (by omega)]; omega)
        (by rw [abs_le]; omega)]
      exact ⟨rfl, fun r hr => by obtain rfl := Except.ok.inj hr; omega⟩
    · rw [if_neg hx, if_neg hx]
      exact ⟨rfl, fun r hr => by obtain rfl := Except.ok.inj hr; omega⟩

theorem addScaleO_eq {q : Int} (hq0 : 0 ≤ q) (hq : q < p) : ∀ {a b : List Int}, RedL p a → RedL p b →
    addArraysO o a (scaleO o (-q) b) p = addArraysModC a (scale (-q) b) p := by
  intro a
  induction a with
  | nil => intros; rfl
  | cons x a ih =>
    intro b ha hb
    cases b with
    | nil => rfl
    | cons y b =>
      have hpM := p_le_M ho hp hM
      obtain ⟨x0, x1⟩ := ha x (List.mem_cons_self ..)
      obtain ⟨y0, y1⟩ := hb y (List.mem_cons_self ..)
      have h1 : 0 ≤ q * y := mul_nonneg hq0 y0
      have h2 : q * y ≤ p * p - p := by nlinarith
      have e1 : o.mul (-q) y = -q * y := by
        refine ho.mul _ _ ?_ ?_ ?_ <;> rw [abs_le] <;> constructor <;> nlinarith
      have e2 : o.add x (-q * y) = x + -q * y := by
        refine ho.add _ _ ?_ ?_ ?_ <;> rw [abs_le] <;> constructor <;> nlinarith
      have e3 : o.mod (x + -q * y) p = (x + -q * y) % (p : Int) :=
        mod_eq ho hp hM (by rw [abs_le]; constructor <;> nlinarith)
      have e := ih (b := b) (fun z hz => ha z (List.mem_cons_of_mem _ hz))
        (fun z hz => hb z (List.mem_cons_of_mem _ hz))
      unfold addArraysO scaleO addArraysModC scale at e ⊢
      rw [List.map_cons, List.zipWith_cons_cons, List.map_cons, List.zipWith_cons_cons, e1, e2, e3, e]

theorem cancelPivotO_eq {pv : ℕ} {rtk rtj : List Int × List Int} (hk : RedL p rtk.1 ∧ RedL p rtk.2)
    (hj : RedL p rtj.1 ∧ RedL p rtj.2) : cancelPivotO o p pv rtk rtj = cancelPivot p pv rtk rtj := by
  have hpM := p_le_M ho hp hM
  have h2 : (2 : Int) ≤ p := by exact_mod_cast hp
  have hget : ∀ {v : List Int} (i : ℕ), RedL p v → 0 ≤ v.getD i 0 ∧ v.getD i 0 < p := by
    intro v i hv
    by_cases hi : i < v.length
    · rw [List_getD_eq_getElem _ _ hi]; exact hv _ (List.getElem_mem _)
    · rw [List.getD_eq_getElem?_getD, List.getElem?_eq_none (by omega)]
      exact ⟨le_rfl, show (0 : Int) < p by omega⟩
  obtain ⟨k0, k1⟩ := hget pv hk.1
  obtain ⟨j0, j1⟩ := hget pv hj.1
  obtain ⟨e1, e2⟩ := invModPO_eq ho hp hM k0 k1.le
  unfold cancelPivotO cancelPivot
  rw [e1]
  cases hinv : invModP (rtk.1.getD pv 0) p with
  | error e => rfl
  | ok r =>
    obtain ⟨r0, r1⟩ := e2 r hinv
    have hpos : 0 ≤ rtj.1.getD pv 0 * r := mul_nonneg j0 r0
    have hle : rtj.1.getD pv 0 * r ≤ M := by nlinarith
    have e3 : o.mul (rtj.1.getD pv 0) r = rtj.1.getD pv 0 * r := by
      refine ho.mul _ _ ?_ ?_ ?_ <;> rw [abs_of_nonneg (by assumption)] <;> omega
    have e4 := mod_eq ho hp hM (x := rtj.1.getD pv 0 * r) (by rw [abs_of_nonneg hpos]; exact hle)
    have q0 := Int.emod_nonneg (rtj.1.getD pv 0 * r) (show (p : Int) ≠ 0 by omega)
    have q1 := Int.emod_lt_of_pos (rtj.1.getD pv 0 * r) (show (0 : Int) < p by omega)
    change Except.ok (addArraysO o rtj.1 (scaleO o (-o.mod (o.mul (rtj.1.getD pv 0) r) p) rtk.1) p,
      addArraysO o rtj.2 (scaleO o (-o.mod (o.mul (rtj.1.getD pv 0) r) p) rtk.2) p) =
      Except.ok (addArraysModC rtj.1 (scale (-(rtj.1.getD pv 0 * r % (p : Int))) rtk.1) p,
      addArraysModC rtj.2 (scale (-(rtj.1.getD pv 0 * r % (p : Int))) rtk.2) p)
    rw [e3, e4, addScaleO_eq ho hp hM q0 q1 hj.1 hk.1, addScaleO_eq ho hp hM q0 q1 hj.2 hk.2]

omit ho hM in
theorem addArraysModC_red (a b : List Int) : RedL p (addArraysModC a b p) := by
  intro x hx
  unfold addArraysModC at hx
  rw [← List.map_uncurry_zip_eq_zipWith] at hx
  obtain ⟨y, -, rfl⟩ := List.mem_map.1 hx
  exact ⟨Int.emod_nonneg _ (by omega), Int.emod_lt_of_pos _ (by omega)⟩

omit ho hM in
theorem cancelPivot_red {pv : ℕ} {rtk rtj rt : List Int × List Int} (h : cancelPivot p pv rtk rtj = .ok rt) :
    RedL p rt.1 ∧ RedL p rt.2 := by
  unfold cancelPivot at h
  rw [bind_ok] at h
  obtain ⟨inv, -, h⟩ := h
  obtain rfl := Except.ok.inj h
  exact ⟨addArraysModC_red hp _ _, addArraysModC_red hp _ _⟩

theorem reduceColO_eq {done : List (List Int × List Int)} (hd : ∀ k ∈ done, RedL p k.1 ∧ RedL p k.2) :
    ∀ (fuel : ℕ) (rt : List Int × List Int), RedL p rt.1 ∧ RedL p rt.2 →
      reduceColO o p done fuel rt = reduceCol p done fuel rt ∧
      ∀ out, reduceCol p done fuel rt = .ok out → RedL p out.1 ∧ RedL p out.2 := by
  intro fuel
  induction fuel with
  | zero => intros; exact ⟨rfl, fun out h => by cases h⟩
  | succ fuel ih =>
    intro rt hrt
    unfold reduceColO reduceCol
    cases hpv : indexPivot rt.1 with
    | none => exact ⟨rfl, fun out h => by obtain rfl := Except.ok.inj h; exact hrt⟩
    | some pv =>
      dsimp only
      cases hf : done.find? (fun k => indexPivot k.1 == some pv) with
      | none => exact ⟨rfl, fun out h => by obtain rfl := Except.ok.inj h; exact hrt⟩
      | some rtk =>
        dsimp only
        rw [cancelPivotO_eq ho hp hM (hd rtk (List.mem_of_find?_eq_some hf)) hrt]
        cases hc : cancelPivot p pv rtk rt with
        | error e => exact ⟨rfl, fun out h => by cases h⟩
        | ok rt' => exact ih rt' (cancelPivot_red hp hc)

theorem gaussLoopO_eq : ∀ (todo done : List (List Int × List Int)), (∀ k ∈ done, RedL p k.1 ∧ RedL p k.2) →
    (∀ k ∈ todo, RedL p k.1 ∧ RedL p k.2) → gaussLoopO o p done todo = gaussLoop p done todo ∧
      ∀ out, gaussLoop p done todo = .ok out → ∀ k ∈ out, RedL p k.1 ∧ RedL p k.2 := by
  intro todo
  induction todo with
  | nil =>
    intro done hd _
    unfold gaussLoopO gaussLoop
    exact ⟨rfl, fun out h => by obtain rfl := Except.ok.inj h; exact hd⟩
  | cons rt todo ih =>
    intro done hd ht
    unfold gaussLoopO gaussLoop
    obtain ⟨e1, e2⟩ := reduceColO_eq ho hp hM hd (rt.1.length + 1) rt (ht rt (List.mem_cons_self ..))
    rw [e1]
    cases hr : reduceCol p done (rt.1.length + 1) rt with
    | error e => exact ⟨rfl, fun out h => by cases h⟩
    | ok rt' =>
      refine ih (done ++ [rt']) (fun k hk => ?_) fun k hk => ht k (List.mem_cons_of_mem _ hk)
      rcases List.mem_append.1 hk with hk | hk
      · exact hd k hk
      · obtain rfl := List.mem_singleton.1 hk
        exact e2 _ hr

omit ho hM in
theorem redL_identity {N : ℕ} : ∀ c ∈ identityCols N, RedL p c := by
  intro c hc
  obtain ⟨j, hj, rfl⟩ := List.getElem_of_mem hc
  exact redL_identityCols hp hj

theorem gaussColO_eq {A : Mat} (hA : A.Reduced p) : gaussColO o p A = gaussCol p A ∧
    ∀ out, gaussCol p A = .ok out → out.1.Reduced p ∧ out.2.Reduced p := by
  unfold gaussColO gaussCol
  by_cases h0 : A.nrows = 0
  · rw [if_pos h0, if_pos h0]
    refine ⟨rfl, fun out h => ?_⟩
    obtain rfl := Except.ok.inj h
    constructor <;> intro c hc <;> cases hc
  rw [if_neg h0, if_neg h0]
  obtain ⟨e1, e2⟩ := gaussLoopO_eq ho hp hM (A.cols.zip (identityCols A.cols.length)) [] (fun k hk => by cases hk)
    fun k hk => ⟨hA _ (List.of_mem_zip hk).1, redL_identity hp _ (List.of_mem_zip hk).2⟩
  rw [e1]
  cases hr : gaussLoop p [] (A.cols.zip (identityCols A.cols.length)) with
  | error e => exact ⟨rfl, fun out h => by cases h⟩
  | ok rts =>
    refine ⟨rfl, fun out h => ?_⟩
    obtain rfl := Except.ok.inj h
    constructor
    · intro c hc
      obtain ⟨k, hk, rfl⟩ := List.mem_map.1 hc
      exact (e2 rts hr k hk).1
    · intro c hc
      obtain ⟨k, hk, rfl⟩ := List.mem_map.1 hc
      exact (e2 rts hr k hk).2

theorem negModO_eq {v : List Int} (hv : RedL p v) : negModO o p v = negMod p v := by
  unfold negModO negMod
  refine List.map_congr_left fun x hx => ?_
  have hpM := p_le_M ho hp hM
  obtain ⟨x0, x1⟩ := hv x hx
  exact mod_eq ho hp hM (by rw [abs_neg, abs_of_nonneg x0]; omega)

omit ho hM hp in
theorem reduced_getLastD {A : Mat} (h : A.Reduced p) : RedL p (A.cols.getLastD []) := by
  rcases List.eq_nil_or_concat A.cols with h0 | ⟨l, c, hc⟩
  · rw [h0]; intro x hx; cases hx
  · have : A.cols.getLastD [] = c := by rw [hc]; simp
    rw [this]
    exact h c (by rw [hc]; simp)

theorem solveModPO_eq {A : Mat} {b : List Int} (hA : A.Reduced p) (hb : RedL p b) :
    solveModPO o p A b = solveModP p A b := by
  unfold solveModPO solveModP
  by_cases h0 : A.nrows = 0
  · rw [if_pos h0, if_pos h0]
  rw [if_neg h0, if_neg h0]
  obtain ⟨e1, e2⟩ := gaussColO_eq ho hp hM (A := ⟨A.nrows, A.cols ++ [b]⟩) (by
    intro c hc
    rcases List.mem_append.1 hc with hc | hc
    · exact hA c hc
    · obtain rfl := List.mem_singleton.1 hc
      exact hb)
  rw [e1]
  cases hr : gaussCol p ⟨A.nrows, A.cols ++ [b]⟩ with
  | error e => rfl
  | ok RT =>
    change (if npAny (RT.1.cols.getLastD []) then _ else _) = (if npAny (RT.1.cols.getLastD []) then _ else _)
    rw [negModO_eq ho hp hM fun x hx => reduced_getLastD (e2 RT hr).2 x (List.mem_of_mem_dropLast hx)]

/-- Sums of products are exact while the number of terms is not too large. -/
theorem dotO_eq : ∀ (r c : List Int), RedL p r → RedL p c →
    ∀ s : Int, 0 ≤ s → s + r.length * ((p : Int) - 1) ^ 2 ≤ M →
    (List.zipWith o.mul r c).foldl o.add s = s + (List.zipWith (· * ·) r c).sum ∧
      0 ≤ s + (List.zipWith (· * ·) r c).sum ∧ s + (List.zipWith (· * ·) r c).sum ≤ M := by
  intro r
  induction r with
  | nil =>
    intro c _ _ s hs hsM
    rw [List.zipWith_nil_left, List.zipWith_nil_left]
    simp only [List.length_nil, Nat.cast_zero, zero_mul, add_zero] at hsM
    exact ⟨by simp, by simpa using hs, by simpa using hsM⟩
  | cons x r ih =>
    intro c hr hc s hs hsM
    have hsq : (0 : Int) ≤ ((p : Int) - 1) ^ 2 := sq_nonneg _
    have hlen : (0 : Int) ≤ r.length * ((p : Int) - 1) ^ 2 := by positivity
    rw [List.length_cons, Nat.cast_add, Nat.cast_one] at hsM
    cases c with
    | nil =>
      rw [List.zipWith_nil_right, List.zipWith_nil_right]
      exact ⟨by simp, by simpa using hs, by simp only [List.sum_nil, add_zero]; nlinarith⟩
    | cons y c =>
      have hpM := p_le_M ho hp hM
      obtain ⟨x0, x1⟩ := hr x (List.mem_cons_self ..)
      obtain ⟨y0, y1⟩ := hc y (List.mem_cons_self ..)
      have hxy0 : 0 ≤ x * y := mul_nonneg x0 y0
      have hxy : x * y ≤ ((p : Int) - 1) ^ 2 := by
        rw [sq]
        exact mul_le_mul (by omega) (by omega) y0 (by omega)
      have e1 : o.mul x y = x * y := by
        refine ho.mul _ _ ?_ ?_ ?_ <;> rw [abs_of_nonneg (by assumption)] <;> nlinarith
      have e2 : o.add s (x * y) = s + x * y := by
        refine ho.add _ _ ?_ ?_ ?_
        · rw [abs_of_nonneg hs]; nlinarith
        · rw [abs_of_nonneg hxy0]; nlinarith
        · rw [abs_of_nonneg (by omega)]; nlinarith
      obtain ⟨i1, i2, i3⟩ := ih c (fun z hz => hr z (List.mem_cons_of_mem _ hz))
        (fun z hz => hc z (List.mem_cons_of_mem _ hz)) (s + x * y) (by omega) (by nlinarith)
      rw [List.zipWith_cons_cons, List.zipWith_cons_cons, List.foldl_cons, e1, e2, i1, List.sum_cons, add_assoc]
      exact ⟨rfl, by omega, by omega⟩

theorem multiplyModPO_eq {A B : Mat} (hA : A.Reduced p) (hB : B.Reduced p)
    (hlen : (A.cols.length : Int) * ((p : Int) - 1) ^ 2 ≤ M) : multiplyModPO o p A B = multiplyModP p A B := by
  have hp0 : 0 < p := by omega
  unfold multiplyModPO multiplyModP
  congr 1
  refine List.map_congr_left fun b hb => List.map_congr_left fun i _ => ?_
  have h1 : RedL p ((List.range A.cols.length).map fun k => A.get i k) := by
    intro x hx
    obtain ⟨k, -, rfl⟩ := List.mem_map.1 hx
    exact hA.get hp0 i k
  have h2 : RedL p ((List.range A.cols.length).map fun k => b.getD k 0) := by
    intro x hx
    obtain ⟨k, -, rfl⟩ := List.mem_map.1 hx
    by_cases hk : k < b.length
    · rw [List_getD_eq_getElem _ _ hk]; exact hB b hb _ (List.getElem_mem _)
    · rw [List.getD_eq_getElem?_getD, List.getElem?_eq_none (by omega)]
      exact ⟨le_rfl, show (0 : Int) < p by omega⟩
  obtain ⟨e1, e2, e3⟩ := dotO_eq ho hp hM _ _ h1 h2 0 le_rfl (by simpa using hlen)
  unfold dotO
  rw [zero_add] at e1 e2 e3
  rw [e1, mod_eq ho hp hM (by rw [abs_of_nonneg e2]; exact e3)]
  congr 1
  rw [List.zipWith_map_left, List.zipWith_map_right, List.zipWith_self]

section Radii

variable {α : Type} [LinearOrder α]

/-- Both components have their entries in the range from `0` to `p - 1`. -/
def RedP (p : ℕ) (k : List Int × List Int) : Prop := RedL p k.1 ∧ RedL p k.2

theorem radScanO_eq {rj : α} {pv : ℕ} : ∀ (ks : List (α × (List Int × List Int))) (rt : List Int × List Int),
    (∀ k ∈ ks, RedP p k.2) → RedP p rt → radScanO o p rj pv ks rt = radScan p rj pv ks rt ∧
      ∀ out, radScan p rj pv ks rt = .ok out → RedP p out := by
  intro ks
  induction ks with
  | nil => intro rt _ hrt; exact ⟨rfl, fun out h => by obtain rfl := Except.ok.inj h; exact hrt⟩
  | cons k ks ih =>
    intro rt hks hrt
    have hks' : ∀ k ∈ ks, RedP p k.2 := fun k hk => hks k (List.mem_cons_of_mem _ hk)
    unfold radScanO radScan
    by_cases hc : k.1 ≤ rj ∧ indexPivot k.2.1 = some pv
    · rw [if_pos hc, if_pos hc, cancelPivotO_eq ho hp hM (hks k (List.mem_cons_self ..)) hrt]
      cases hr : cancelPivot p pv k.2 rt with
      | error e => exact ⟨rfl, fun out h => by cases h⟩
      | ok rt' =>
        have hrt' : RedP p rt' := cancelPivot_red hp hr
        obtain ⟨e1, e2⟩ := ih rt' hks' hrt'
        change (if npAny rt'.1 then Except.ok rt' else radScanO o p rj pv ks rt') =
          (if npAny rt'.1 then Except.ok rt' else radScan p rj pv ks rt') ∧
          ∀ out, (if npAny rt'.1 then Except.ok rt' else radScan p rj pv ks rt') = Except.ok out → RedP p out
        rw [e1]
        refine ⟨rfl, fun out h => ?_⟩
        split at h
        · obtain rfl := Except.ok.inj h; exact hrt'
        · exact e2 out h
    · rw [if_neg hc, if_neg hc]
      exact ih rt hks' hrt

theorem radLoopO_eq {rj : α} {done : List (α × (List Int × List Int))} (hd : ∀ k ∈ done, RedP p k.2) :
    ∀ (fuel : ℕ) (rt : List Int × List Int), RedP p rt → radLoopO o p rj done fuel rt = radLoop p rj done fuel rt := by
  intro fuel
  induction fuel with
  | zero => intros; rfl
  | succ fuel ih =>
    intro rt hrt
    unfold radLoopO radLoop
    cases indexPivot rt.1 with
    | none => rfl
    | some pv =>
      dsimp only
      obtain ⟨e1, e2⟩ := radScanO_eq ho hp hM (rj := rj) (pv := pv) done rt hd hrt
      rw [e1]
      cases hr : radScan p rj pv done rt with
      | error e => rfl
      | ok rt' =>
        change (if indexPivot rt'.1 = some pv then _ else _) = (if indexPivot rt'.1 = some pv then _ else _)
        rw [ih rt' (e2 rt' hr)]

theorem radAllO_eq {A : Mat} (hA : ∀ c ∈ A.cols, ∀ x ∈ c, |x| ≤ M) (R : List α) :
    radAllO o p A R = radAll p A R := by
  unfold radAllO radAll
  congr 2
  exact List.map_congr_left fun c hc => List.map_congr_left fun x hx => mod_eq ho hp hM (hA c hc x hx)

omit ho hM in
theorem radAll_red (A : Mat) (R : List α) : ∀ k ∈ radAll p A R, RedP p k.2 := by
  intro k hk
  have h1 := (List.of_mem_zip hk).2
  have h2 := List.of_mem_zip h1
  refine ⟨?_, redL_identity hp _ h2.2⟩
  obtain ⟨c, -, hc⟩ := List.mem_map.1 h2.1
  rw [← hc]
  intro x hx
  obtain ⟨y, -, rfl⟩ := List.mem_map.1 hx
  exact ⟨Int.emod_nonneg _ (by omega), Int.emod_lt_of_pos _ (by omega)⟩

omit ho hp hM in
theorem mapM_congr_mem {β γ ε : Type} {f g : β → Except ε γ} : ∀ {l : List β}, (∀ x ∈ l, f x = g x) →
    l.mapM f = l.mapM g := by
  intro l
  induction l with
  | nil => intro _; rfl
  | cons x l ih =>
    intro h
    rw [List.mapM_cons, List.mapM_cons, h x (List.mem_cons_self ..), ih fun y hy => h y (List.mem_cons_of_mem _ hy)]

theorem gaussColRadO_eq {A : Mat} (hA : ∀ c ∈ A.cols, ∀ x ∈ c, |x| ≤ M) (R : List α) (start : ℕ) :
    gaussColRadO o p A R start = gaussColRad p A R start := by
  unfold gaussColRadO gaussColRad
  rw [radAllO_eq ho hp hM hA]
  have h : ((radAll p A R).drop start).mapM
      (fun c => radLoopO o p c.1 ((radAll p A R).take start) (c.2.1.length + 1) c.2) =
      ((radAll p A R).drop start).mapM
      (fun c => radLoop p c.1 ((radAll p A R).take start) (c.2.1.length + 1) c.2) :=
    mapM_congr_mem fun c hc => radLoopO_eq ho hp hM
      (fun k hk => radAll_red hp A R k (List.mem_of_mem_take hk)) _ _
      (radAll_red hp A R c (List.mem_of_mem_drop hc))
  dsimp only
  rw [h]

theorem gaussBarcodesColO_eq {A : Mat} (hA : A.Reduced p) (rowBars colBars : List (α × α)) (start j : ℕ) (bj : α) :
    gaussBarcodesColO o p A rowBars colBars start j bj = gaussBarcodesCol p A rowBars colBars start j bj := by
  unfold gaussBarcodesColO gaussBarcodesCol
  dsimp only
  split
  · rfl
  obtain ⟨e1, e2⟩ := gaussColO_eq ho hp hM
    (A := subMat A (aliveAt rowBars bj) (aliveAt (colBars.take start) bj ++ [j])) (by
      intro c hc
      obtain ⟨k, -, rfl⟩ := List.mem_map.1 hc
      intro x hx
      obtain ⟨i, -, rfl⟩ := List.mem_map.1 hx
      exact hA.get (by omega) i k)
  rw [e1]
  cases hr : gaussCol p (subMat A (aliveAt rowBars bj) (aliveAt (colBars.take start) bj ++ [j])) with
  | error e => rfl
  | ok RT =>
    change (if npAny (RT.1.cols.getLastD []) then _ else _) = (if npAny (RT.1.cols.getLastD []) then _ else _)
    rw [negModO_eq ho hp hM fun x hx => reduced_getLastD (e2 RT hr).2 x (List.mem_of_mem_dropLast hx)]

theorem gaussBarcodesO_eq {A : Mat} (hA : A.Reduced p) (rowBars colBars : List (α × α)) (start : ℕ) :
    gaussBarcodesO o p A rowBars colBars start = gaussBarcodes p A rowBars colBars start := by
  unfold gaussBarcodesO gaussBarcodes
  rw [show gaussBarcodesRoundO o p A rowBars colBars start = gaussBarcodesRound p A rowBars colBars start from ?_]
  funext j
  unfold gaussBarcodesRoundO gaussBarcodesRound
  cases colBars[j]? with
  | none => rfl
  | some b => exact gaussBarcodesColO_eq ho hp hM hA rowBars colBars start j b.1

variable [Zero α]

theorem phLoopO_eq {maxRad : α} : ∀ (Ds : List Mat) (Rp : List α) (Rs : List (List α)), (∀ D ∈ Ds, D.Reduced p) →
    phLoopO o p maxRad Ds Rp Rs = phLoop p maxRad Ds Rp Rs := by
  intro Ds
  induction Ds with
  | nil => intros; rfl
  | cons D Ds ih =>
    intro Rp Rs h
    unfold phLoopO phLoop
    rw [ih _ _ fun D' hD' => h D' (List.mem_cons_of_mem _ hD')]
    have hs : ∀ Rp Rd piv, phStepO o p maxRad D Rp Rd piv = phStep p maxRad D Rp Rd piv := by
      intro Rp Rd piv
      unfold phStepO phStep
      dsimp only
      rw [(gaussColO_eq ho hp hM (clearCols_reduced (by omega) (h D (List.mem_cons_self ..)) piv)).1]
      rfl
    cases phLoop p maxRad Ds (Rs.getD 0 []) Rs.tail with
    | error e => rfl
    | ok r =>
      obtain ⟨piv, fin, levels⟩ := r
      dsimp only
      rw [hs]
      rfl

theorem persistentHomologyO_eq (rnd : α → α) (D0 : ℕ) {D : List Mat} (hD : ∀ A ∈ D, A.Reduced p)
    (R : List (List α)) (maxRad : α) :
    persistentHomologyO o rnd p D0 D R maxRad = persistentHomology rnd p D0 D R maxRad := by
  unfold persistentHomologyO persistentHomology
  rw [phLoopO_eq ho hp hM _ _ _ hD]
  rfl

omit ho hM in
theorem diffTail_reduced : ∀ (C : List (List (List ℕ))) (d : ℕ) (S : List (List ℕ)),
    ∀ A ∈ diffTail p d S C, A.Reduced p := by
  intro C
  induction C with
  | nil => intro d S A hA; cases hA
  | cons T C ih =>
    intro d S A hA
    unfold diffTail at hA
    rcases List.mem_cons.1 hA with rfl | hA
    · exact (diffHigher_shape p d S T hp).2
    · exact ih _ _ A hA

omit ho hM in
theorem complexDifferentials_reduced {n n' : ℕ} {C : List (List (List ℕ))} {D : List Mat}
    (h : complexDifferentials n C p = .ok (n', D)) : ∀ A ∈ D, A.Reduced p := by
  unfold complexDifferentials at h
  split at h
  · cases h
  · split at h
    · obtain ⟨-, rfl⟩ := Prod.mk.inj (Except.ok.inj h)
      intro A hA
      rcases List.mem_cons.1 hA with rfl | hA
      · exact (diffOne_shape p n _ hp).2
      · exact diffTail_reduced hp _ _ _ A hA
    · cases h

theorem localPersistentHomologyO_eq {Pt : Type} (pdist : List Pt → List (List α)) (argsort : List α → List Nat)
    (rnd : α → α) (cloud : List Pt) (maxR : α) (maxDim : Int) :
    localPersistentHomologyO o pdist argsort rnd cloud maxR maxDim p =
      localPersistentHomology pdist argsort rnd cloud maxR maxDim p := by
  unfold localPersistentHomologyO localPersistentHomology
  dsimp only
  split
  · next e he => rw [he]
  · next D0 D hD =>
    rw [hD]
    dsimp only
    rw [persistentHomologyO_eq ho hp hM rnd D0 (complexDifferentials_reduced hp hD)]
    rfl

end Radii

end

end Permaviss
