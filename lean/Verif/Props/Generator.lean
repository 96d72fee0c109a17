import Verif.Spec.Generator
import Verif.Props.Samples

/-!
# C101: random point clouds and the generator of the process
-/

namespace Permaviss

open Spec

variable {σ : Type} (G : Generator σ)

/-! ## Draws -/

theorem stateAfter_add (s : σ) (k : ℕ) : ∀ l, stateAfter G (stateAfter G s k) l = stateAfter G s (k + l)
  | 0 => rfl
  | l + 1 => by
    show (G.next _).2 = (G.next _).2
    rw [stateAfter_add s k l]; rfl

theorem futureDraws_add (s : σ) (k l : ℕ) : futureDraws G (stateAfter G s k) l = futureDraws G s (k + l) := by
  unfold futureDraws
  rw [stateAfter_add]

theorem drawList_eq : ∀ (n : ℕ) (s : σ),
    G.drawList n s = ((List.range n).map (futureDraws G s), stateAfter G s n)
  | 0, _ => rfl
  | n + 1, s => by
    have h : (G.next s).2 = stateAfter G s 1 := rfl
    unfold Generator.drawList
    simp only [h, drawList_eq n, stateAfter_add, List.range_succ_eq_map, List.map_cons, List.map_map, Prod.mk.injEq,
      List.cons.injEq]
    refine ⟨⟨rfl, List.map_congr_left fun i _ => ?_⟩, by rw [Nat.add_comm]⟩
    show _ = futureDraws G s (i + 1)
    rw [futureDraws_add, Nat.add_comm]

/-- A loop whose rounds use `k` numbers each. -/
theorem genPoints_eq {f : σ → List ℝ × σ} {g : (ℕ → ℝ) → List ℝ} {k : ℕ}
    (hf : ∀ s, f s = (g (futureDraws G s), stateAfter G s k)) : ∀ (n : ℕ) (s : σ),
    genPoints f n s = ((List.range n).map (fun i => g fun j => futureDraws G s (i * k + j)), stateAfter G s (n * k))
  | 0, s => by simp [genPoints, stateAfter]
  | n + 1, s => by
    unfold genPoints
    simp only [hf s, genPoints_eq hf n, stateAfter_add, List.range_succ_eq_map, List.map_cons, List.map_map,
      Prod.mk.injEq, List.cons.injEq]
    refine ⟨⟨by simp, List.map_congr_left fun i _ => ?_⟩, by congr 1; ring⟩
    show _ = g fun j => futureDraws G s ((i + 1) * k + j)
    congr 1; funext j
    rw [futureDraws_add]; congr 1; ring

theorem genPoints_add {f : σ → List ℝ × σ} (m : ℕ) : ∀ (n : ℕ) (s : σ),
    genPoints f (n + m) s =
      ((genPoints f n s).1 ++ (genPoints f m (genPoints f n s).2).1, (genPoints f m (genPoints f n s).2).2)
  | 0, s => by simp [genPoints]
  | n + 1, s => by
    rw [Nat.add_right_comm]
    simp only [genPoints, genPoints_add m n, List.cons_append]

/-! ## What the functions use of the generator -/

/-- **C101, `take_sample`** uses one number: the next one, or the first one of its seed. -/
theorem C101_take_sample (d : List ℝ → List ℝ → ℝ) (cloud : List (List ℝ)) (noSamples : Int) (s : σ) :
    takeSampleGen G d cloud noSamples none s =
      (takeSample d cloud noSamples (futureDraws G s 0), stateAfter G s 1) ∧
    ∀ seed, takeSampleGen G d cloud noSamples (some seed) s =
      (takeSample d cloud noSamples (futureDraws G (G.seeded seed) 0), stateAfter G (G.seeded seed) 1) :=
  ⟨rfl, fun _ => rfl⟩

/-- The point of a circle that the first two numbers give. -/
noncomputable def circleOf (radius epsilon : ℝ) (center : ℝ × ℝ) (r : ℕ → ℝ) : List ℝ :=
  [center.1 + (radius * (1 + r 1 * epsilon)) * Real.cos (r 0 * 2 * Real.pi),
    center.2 + (radius * (1 + r 1 * epsilon)) * Real.sin (r 0 * 2 * Real.pi)]

theorem circlePointGen_eq (radius epsilon : ℝ) (center : ℝ × ℝ) (s : σ) :
    circlePointGen G radius epsilon center s =
      (circleOf radius epsilon center (futureDraws G s), stateAfter G s 2) := rfl

/-- **C101, `random_circle`** uses two numbers for each point. -/
theorem C101_random_circle (noPoints : ℕ) (radius epsilon : ℝ) (center : ℝ × ℝ) (s : σ) :
    randomCircleGen G noPoints radius epsilon center none s =
      (randomCircle (futureDraws G s) noPoints radius epsilon center, stateAfter G s (2 * noPoints)) ∧
    ∀ seed, randomCircleGen G noPoints radius epsilon center (some seed) s =
      (randomCircle (futureDraws G (G.seeded seed)) noPoints radius epsilon center,
        stateAfter G (G.seeded seed) (2 * noPoints)) := by
  have key : ∀ t : σ, genPoints (circlePointGen G radius epsilon center) noPoints t =
      (randomCircle (futureDraws G t) noPoints radius epsilon center, stateAfter G t (2 * noPoints)) := by
    intro t
    rw [genPoints_eq G (circlePointGen_eq G radius epsilon center), Nat.mul_comm noPoints 2]
    unfold randomCircle circleOf
    simp only [Nat.mul_comm _ 2, Nat.add_zero]
  exact ⟨key s, fun seed => key (G.seeded seed)⟩

/-- The point of a sphere that the first `dim` numbers give. -/
noncomputable def sphereOf (radius : ℝ) (dim : ℕ) (r : ℕ → ℝ) : List ℝ :=
  (drawPoint r 0 dim radius).map fun x => x / npNorm (drawPoint r 0 dim radius)

theorem spherePointGen_eq (radius : ℝ) (dim : ℕ) (s : σ) :
    spherePointGen G radius dim s =
      (sphereOf radius dim (futureDraws G s), stateAfter G s dim) := by
  have h : (((List.range dim).map (futureDraws G s)).map fun t => (t - 1 / 2) * radius) =
      drawPoint (futureDraws G s) 0 dim radius := by
    unfold drawPoint
    rw [List.map_map]
    exact List.map_congr_left fun i _ => by simp
  unfold spherePointGen sphereOf
  simp only [drawList_eq, h]

/-- **C101, `random_sphere`** uses `dim` numbers for each point. -/
theorem C101_random_sphere (noPoints : ℕ) (radius : ℝ) (dim : ℕ) (s : σ) :
    randomSphereGen G noPoints radius dim s =
      (randomSphere (futureDraws G s) noPoints radius dim, stateAfter G s (noPoints * dim)) := by
  unfold randomSphereGen
  rw [genPoints_eq G (spherePointGen_eq G radius dim)]
  unfold randomSphere sphereOf drawPoint
  simp only [Nat.zero_add]

/-- The point of a cube that the first `dim` numbers give. -/
noncomputable def cubeOf (dim : ℕ) (r : ℕ → ℝ) : List ℝ := (List.range dim).map fun d => r d - 1 / 2

theorem cubePointGen_eq (dim : ℕ) (s : σ) :
    cubePointGen G dim s =
      (cubeOf dim (futureDraws G s), stateAfter G s dim) := by
  unfold cubePointGen
  simp only [drawList_eq, List.map_map]
  rfl

/-- **C101, `random_cube`** uses `dim` numbers for each point. -/
theorem C101_random_cube (noPoints dim : ℕ) (s : σ) :
    randomCubeGen G noPoints dim s = (randomCube (futureDraws G s) noPoints dim, stateAfter G s (noPoints * dim)) := by
  unfold randomCubeGen
  rw [genPoints_eq G (cubePointGen_eq G dim)]
  rfl

/-- The point of a torus that the first two numbers give. -/
noncomputable def torusOf (minRad maxRad : ℝ) (r : ℕ → ℝ) : List ℝ :=
  [(maxRad + minRad * Real.cos (r 1 * 2 * Real.pi)) * Real.cos (r 0 * 2 * Real.pi),
    (maxRad + minRad * Real.cos (r 1 * 2 * Real.pi)) * Real.sin (r 0 * 2 * Real.pi),
    minRad * Real.sin (r 1 * 2 * Real.pi)]

theorem torusPointGen_eq (minRad maxRad : ℝ) (s : σ) :
    torusPointGen G minRad maxRad s =
      (torusOf minRad maxRad (futureDraws G s), stateAfter G s 2) := rfl

/-- **C101, `torus3D`** uses two numbers for each point, and none if it raises. -/
theorem C101_torus3D (noPoints : ℕ) (minRad maxRad : ℝ) (s : σ) :
    (torus3DGen G noPoints minRad maxRad s).1 = torus3D (futureDraws G s) noPoints minRad maxRad ∧
    (torus3DGen G noPoints minRad maxRad s).2 = stateAfter G s (if minRad > maxRad then 0 else 2 * noPoints) := by
  unfold torus3DGen torus3D
  split
  · exact ⟨rfl, rfl⟩
  · rw [genPoints_eq G (torusPointGen_eq G minRad maxRad), Nat.mul_comm noPoints 2]
    refine ⟨?_, rfl⟩
    unfold torusOf
    simp only [Nat.mul_comm _ 2, Nat.add_zero]

theorem ballPointGen_eq (radius : ℝ) (dim : ℕ) (s : σ) : ∀ (fuel pos : ℕ),
    (ballPointGen G radius dim fuel (stateAfter G s pos)).1 =
      (ballPoint (futureDraws G s) radius dim fuel pos).map Prod.fst ∧
    ∀ x, ballPoint (futureDraws G s) radius dim fuel pos = .ok x →
      (ballPointGen G radius dim fuel (stateAfter G s pos)).2 = stateAfter G s x.2
  | 0, pos => ⟨rfl, fun x h => by cases h⟩
  | fuel + 1, pos => by
    have h : (((List.range dim).map (futureDraws G (stateAfter G s pos))).map fun t => (t - 1 / 2) * radius) =
        drawPoint (futureDraws G s) pos dim radius := by
      unfold drawPoint
      rw [List.map_map]
      exact List.map_congr_left fun i _ => by simp [futureDraws_add]
    unfold ballPointGen ballPoint
    simp only [drawList_eq, h, stateAfter_add]
    split
    · refine ⟨rfl, fun x hx => ?_⟩
      injection hx with hx
      rw [← hx]
    · exact ballPointGen_eq radius dim s fuel (pos + dim)

theorem ballGen_eq (fuel : ℕ) (radius : ℝ) (dim : ℕ) (s : σ) : ∀ (n pos : ℕ),
    (ballGen G fuel radius dim n (stateAfter G s pos)).1 = ballLoop (futureDraws G s) radius dim fuel n pos
  | 0, pos => rfl
  | n + 1, pos => by
    obtain ⟨h1, h2⟩ := ballPointGen_eq G radius dim s fuel pos
    unfold ballGen ballLoop
    cases e : ballPoint (futureDraws G s) radius dim fuel pos with
    | error er =>
      rw [e] at h1
      cases e' : ballPointGen G radius dim fuel (stateAfter G s pos) with
      | mk a b => rw [e'] at h1; cases h1; rfl
    | ok x =>
      rw [e] at h1
      have h2 := h2 x e
      cases e' : ballPointGen G radius dim fuel (stateAfter G s pos) with
      | mk a b =>
        rw [e'] at h1 h2
        cases h1
        simp only at h2
        subst h2
        have ih := ballGen_eq fuel radius dim s n x.2
        simp only [Except.map, bind, Except.bind]
        cases e2 : ballGen G fuel radius dim n (stateAfter G s x.2) with
        | mk a b =>
          rw [e2] at ih
          simp only at ih
          rw [← ih]
          cases a <;> rfl

theorem ballPointGen_state (radius : ℝ) (dim : ℕ) : ∀ (fuel : ℕ) (s : σ),
    ∃ k ≤ fuel, (ballPointGen G radius dim fuel s).2 = stateAfter G s (k * dim)
  | 0, s => ⟨0, le_rfl, by simp [ballPointGen, stateAfter]⟩
  | fuel + 1, s => by
    unfold ballPointGen
    simp only [drawList_eq]
    split
    · exact ⟨1, by omega, by simp⟩
    · obtain ⟨k, hk, e⟩ := ballPointGen_state radius dim fuel (stateAfter G s dim)
      refine ⟨k + 1, by omega, ?_⟩
      rw [e, stateAfter_add]; congr 1; ring

theorem ballGen_state (fuel : ℕ) (radius : ℝ) (dim : ℕ) : ∀ (n : ℕ) (s : σ),
    ∃ k ≤ n * fuel, (ballGen G fuel radius dim n s).2 = stateAfter G s (k * dim)
  | 0, s => ⟨0, by simp, by simp [ballGen, stateAfter]⟩
  | n + 1, s => by
    obtain ⟨k, hk, e⟩ := ballPointGen_state G radius dim fuel s
    unfold ballGen
    cases h : ballPointGen G radius dim fuel s with
    | mk a t =>
      rw [h] at e
      simp only at e
      cases a with
      | error er => exact ⟨k, hk.trans (by rw [Nat.succ_mul]; omega), e⟩
      | ok x =>
        obtain ⟨k', hk', e'⟩ := ballGen_state fuel radius dim n t
        refine ⟨k + k', by rw [Nat.succ_mul]; omega, ?_⟩
        have e2 : (ballGen G fuel radius dim n t).2 = stateAfter G s ((k + k') * dim) := by
          rw [e', e, stateAfter_add]; congr 1; ring
        simp only
        cases h2 : ballGen G fuel radius dim n t with
        | mk b t' =>
          rw [h2] at e2
          cases b <;> exact e2

/-- **C101, `ball`** draws `dim` numbers at a time, until the point is valid. -/
theorem C101_ball (fuel noPoints : ℕ) (radius : ℝ) (dim : ℕ) (s : σ) :
    (ballGen G fuel radius dim noPoints s).1 = ball (futureDraws G s) fuel noPoints radius dim ∧
    ∃ k ≤ noPoints * fuel, (ballGen G fuel radius dim noPoints s).2 = stateAfter G s (k * dim) :=
  ⟨ballGen_eq G fuel radius dim s noPoints 0, ballGen_state G fuel radius dim noPoints s⟩

/-! ## Seeds -/

/-- **C101, a seed makes the rest of the program reproducible.**  Calls one after the other, the first of them with a
seed: what they return, and the generator at the end, do not depend on the generator before. -/
theorem C101_reproducible (d : List ℝ → List ℝ → ℝ) (fuel : ℕ) {c : SampleCall} (hc : IsSeeded c) (l : List SampleCall)
    (s s' : σ) : runCalls G d fuel (c :: l) s = runCalls G d fuel (c :: l) s' := by
  have h : c.run G d fuel s = c.run G d fuel s' := by
    cases c with
    | takeSample cloud k seed =>
      cases seed with
      | none => cases hc
      | some x => rfl
    | randomCircle n r e ce seed =>
      cases seed with
      | none => cases hc
      | some x => rfl
    | _ => exact absurd hc (by simp [IsSeeded])
  unfold runCalls
  rw [h]

theorem runCalls_append (d : List ℝ → List ℝ → ℝ) (fuel : ℕ) (l' : List SampleCall) : ∀ (l : List SampleCall) (s : σ),
    runCalls G d fuel (l ++ l') s = ((runCalls G d fuel l s).1 ++ (runCalls G d fuel l' (runCalls G d fuel l s).2).1,
      (runCalls G d fuel l' (runCalls G d fuel l s).2).2)
  | [], s => rfl
  | c :: l, s => by
    simp only [List.cons_append, runCalls, runCalls_append d fuel l' l]

/-- **C101, a seed also repeats what other calls draw.**  After a call with a seed, calls without one return the same
each time that the program comes to this point, whatever was drawn before: they are not independent of each other. -/
theorem C101_repeats (d : List ℝ → List ℝ → ℝ) (fuel : ℕ) {c : SampleCall} (hc : IsSeeded c)
    (l before between : List SampleCall) (s : σ) :
    ∃ out outs outs', (runCalls G d fuel (before ++ ((c :: l) ++ (between ++ (c :: l)))) s).1 =
      outs ++ (out ++ (outs' ++ out)) ∧ outs.length = before.length ∧ outs'.length = between.length ∧
      out.length = l.length + 1 := by
  have hlen : ∀ (l : List SampleCall) (s : σ), (runCalls G d fuel l s).1.length = l.length := by
    intro l
    induction l with
    | nil => intro s; rfl
    | cons c l ih => intro s; simp only [runCalls, List.length_cons, ih]
  refine ⟨(runCalls G d fuel (c :: l) s).1, (runCalls G d fuel before s).1,
    (runCalls G d fuel between (runCalls G d fuel (c :: l) s).2).1, ?_, hlen _ _, hlen _ _, by rw [hlen]; rfl⟩
  · rw [runCalls_append, runCalls_append, runCalls_append,
      C101_reproducible G d fuel hc l (runCalls G d fuel before s).2 s,
      C101_reproducible G d fuel hc l (runCalls G d fuel between (runCalls G d fuel (c :: l) s).2).2 s]

/-! ## Points in several calls -/

/-- **C101, points drawn in two calls** are those of one call. -/
theorem C101_batches (s : σ) (n m : ℕ) :
    (∀ radius epsilon center seed, (randomCircleGen G (n + m) radius epsilon center seed s).1 =
      (randomCircleGen G n radius epsilon center seed s).1 ++
      (randomCircleGen G m radius epsilon center none (randomCircleGen G n radius epsilon center seed s).2).1) ∧
    (∀ radius dim, (randomSphereGen G (n + m) radius dim s).1 =
      (randomSphereGen G n radius dim s).1 ++ (randomSphereGen G m radius dim (randomSphereGen G n radius dim s).2).1) ∧
    (∀ dim, (randomCubeGen G (n + m) dim s).1 =
      (randomCubeGen G n dim s).1 ++ (randomCubeGen G m dim (randomCubeGen G n dim s).2).1) := by
  refine ⟨fun radius epsilon center seed => ?_, fun radius dim => ?_, fun dim => ?_⟩
  · unfold randomCircleGen; rw [genPoints_add]; rfl
  · unfold randomSphereGen; rw [genPoints_add]
  · unfold randomCubeGen; rw [genPoints_add]

/-! ## Concrete cases -/

/-- A generator with four states. -/
noncomputable def quarterGen : Generator (Fin 4) := ⟨fun s => ((s.1 : ℝ) / 4, s + 1), fun k => ⟨(k % 4).toNat, by omega⟩⟩

/-- Its numbers are in `[0, 1)`; a cube drawn from it, and the same after a seed. -/
example : (∀ s k, 0 ≤ futureDraws quarterGen s k ∧ futureDraws quarterGen s k < 1) ∧
    randomCubeGen quarterGen 2 1 1 = ([[(1 : ℝ) / 4 - 1 / 2], [(2 : ℝ) / 4 - 1 / 2]], 3) ∧
    IsSeeded (.randomCircle 1 1 0 (0, 0) (some 7)) ∧
    (randomCircleGen quarterGen 1 1 0 (0, 0) (some 7) 1).2 = 1 := by
  refine ⟨fun s k => ?_, ?_, rfl, rfl⟩
  · generalize h : stateAfter quarterGen s k = t
    unfold futureDraws
    rw [h]
    show 0 ≤ (t.1 : ℝ) / 4 ∧ (t.1 : ℝ) / 4 < 1
    have h4 : (t.1 : ℝ) < 4 := by exact_mod_cast t.2
    constructor
    · positivity
    · linarith
  · rw [show (randomCubeGen quarterGen 2 1 1) = ([[((1 : Fin 4).1 : ℝ) / 4 - 1 / 2], [((2 : Fin 4).1 : ℝ) / 4 - 1 / 2]], 3)
      from rfl]
    norm_num

end Permaviss
