import Verif.Model.Py
import Mathlib.Data.List.Basic

/-! `List.mapM` in `Except`. -/

namespace Permaviss

variable {α β ε : Type*}

theorem mapM_cons_ok {f : α → Except ε β} {x : α} {xs : List α} {ys : List β}
    (h : (x :: xs).mapM f = .ok ys) :
    ∃ y ys', f x = .ok y ∧ xs.mapM f = .ok ys' ∧ ys = y :: ys' := by
  rw [List.mapM_cons] at h
  cases hx : f x with
  | error e => rw [hx] at h; cases h
  | ok y =>
    rw [hx] at h
    cases hxs : xs.mapM f with
    | error e => simp only [bind, Except.bind, hxs] at h; cases h
    | ok ys' =>
      simp only [bind, Except.bind, hxs, pure, Except.pure, Except.ok.injEq] at h
      exact ⟨y, ys', rfl, rfl, h.symm⟩

/-- A successful `mapM` applied `f` successfully to each element, in order. -/
theorem mapM_ok_spec {f : α → Except ε β} : ∀ {xs : List α} {ys : List β}, xs.mapM f = .ok ys →
    ys.length = xs.length ∧ ∀ i (h : i < xs.length) (h' : i < ys.length), f xs[i] = .ok ys[i] := by
  intro xs
  induction xs with
  | nil => intro ys h; simp [pure, Except.pure] at h; subst h; simp
  | cons x xs ih =>
    intro ys h
    obtain ⟨y, ys', h1, h2, rfl⟩ := mapM_cons_ok h
    obtain ⟨h3, h4⟩ := ih h2
    refine ⟨by simp [h3], ?_⟩
    intro i hi hi'
    cases i with
    | zero => simpa using h1
    | succ i => simpa using h4 i (by simpa using hi) (by simpa using hi')

theorem mapM_ok_of {f : α → Except ε β} : ∀ {xs : List α}, (∀ x ∈ xs, ∃ y, f x = .ok y) →
    ∃ ys, xs.mapM f = .ok ys := by
  intro xs
  induction xs with
  | nil => intro _; exact ⟨[], by simp [pure, Except.pure]⟩
  | cons x xs ih =>
    intro h
    obtain ⟨y, hy⟩ := h x (by simp)
    obtain ⟨ys, hys⟩ := ih fun x hx => h x (by simp [hx])
    refine ⟨y :: ys, ?_⟩
    rw [List.mapM_cons, hy]
    simp only [bind, Except.bind, hys, pure, Except.pure]

/-- A failing `mapM` stops at the first failing element, with its error. -/
theorem mapM_error_spec {f : α → Except ε β} {e : ε} : ∀ {xs : List α}, xs.mapM f = .error e →
    ∃ x ∈ xs, f x = .error e := by
  intro xs
  induction xs with
  | nil => intro h; simp [pure, Except.pure] at h
  | cons x xs ih =>
    intro h
    rw [List.mapM_cons] at h
    cases hx : f x with
    | error e' =>
      rw [hx] at h
      simp only [bind, Except.bind, Except.error.injEq] at h
      subst h
      exact ⟨x, by simp, hx⟩
    | ok y =>
      rw [hx] at h
      cases hxs : xs.mapM f with
      | error e' =>
        simp only [bind, Except.bind, hxs, Except.error.injEq] at h
        subst h
        obtain ⟨z, hz, hz'⟩ := ih hxs
        exact ⟨z, by simp [hz], hz'⟩
      | ok ys => simp only [bind, Except.bind, hxs, pure, Except.pure] at h; cases h

end Permaviss
