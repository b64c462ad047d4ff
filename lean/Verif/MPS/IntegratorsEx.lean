import Verif.MPS.IntegratorsC87
import Mathlib.Analysis.Calculus.Deriv.Pow
import Mathlib.Analysis.Calculus.Deriv.Prod
import Mathlib.Analysis.Calculus.Deriv.Mul
import Mathlib.Analysis.Calculus.Deriv.Add
import Mathlib.Topology.Algebra.Module.FiniteDimension
import Mathlib.LinearAlgebra.Matrix.ToLin
import Mathlib.LinearAlgebra.Matrix.Notation

/-! # C87, continued: many steps, equations that are not linear, and what goes wrong -/

noncomputable section

namespace Verif.Integrators

open Finset

section claims

variable {E : Type*} [NormedAddCommGroup E] [NormedSpace ℝ E]

theorem exp_steps [CompleteSpace E] {N : Nat} (A : (Fin N → E) →L[ℝ] (Fin N → E)) (t : ℝ) (q n : Nat) (u : Fin N → E) :
    ‖(taylor q (t • A) ^ n) u - NormedSpace.exp ((n * t) • A) u‖ ≤ n * ((|t| * ‖A‖) ^ q / q.factorial * Real.exp (n * (|t| * ‖A‖))) * ‖u‖ := by
  rcases subsingleton_or_nontrivial (Fin N → E) with hV | hV
  · rw [Subsingleton.elim ((taylor q (t • A) ^ n) u) (NormedSpace.exp ((n * t) • A) u), sub_self, norm_zero]
    positivity
  · have h := pow_taylor q (t • A) n
    have hx : ‖t • A‖ = |t| * ‖A‖ := by rw [norm_smul, Real.norm_eq_abs]
    have he : NormedSpace.exp ((n * t) • A) = NormedSpace.exp (t • A) ^ n := by
      letI : NormedAlgebra ℚ ((Fin N → E) →L[ℝ] (Fin N → E)) := NormedAlgebra.restrictScalars ℚ ℝ _
      rw [← NormedSpace.exp_nsmul, mul_smul, Nat.cast_smul_eq_nsmul]
    rw [he, norm_sub_rev, ← sub_apply]
    rw [hx] at h
    exact (ContinuousLinearMap.le_opNorm _ u).trans (mul_le_mul_of_nonneg_right h (norm_nonneg u))

/-- C87, proved part. For a derivative which is linear in the tensors, `n` steps of `rungeKutta4` give the exponential of `n t A` applied to
the tensors, with an error of at most `n (|t| ‖A‖)⁵/5! exp(n |t| ‖A‖)` of their size; one step gives the Taylor polynomial of degree four exactly.
Element 0 and the empty elements at the end are kept. That the error of a step is of fifth order also when the derivative is not linear is not
proved; see `C87_cubic` for what is. -/
theorem C87_rk4_partial [CompleteSpace E] {N : Nat} {D : Vec E → Res (Vec E)} {v : Vec E} (hs : Start v N) {u : Fin N → E} (h : Holds v u v)
    (A : (Fin N → E) →L[ℝ] (Fin N → E)) (hD : Deriv D v A) (t : ℝ) :
    (∃ w, rungeKutta4 D t v = .ok w ∧ Holds v (u + t • A u + (t ^ 2 / 2) • A (A u) + (t ^ 3 / 6) • A (A (A u)) + (t ^ 4 / 24) • A (A (A (A u)))) w) ∧
    ∀ n : Nat, ∃ w u', steps (rungeKutta4 D t) n v = .ok w ∧ Holds v u' w ∧
      ‖u' - NormedSpace.exp ((n * t) • A) u‖ ≤ n * ((|t| * ‖A‖) ^ 5 / 120 * Real.exp (n * (|t| * ‖A‖))) * ‖u‖ := by
  constructor
  · obtain ⟨w, e, hw⟩ := rk_spec hs h hD t
    refine ⟨w, e, ?_⟩
    convert hw using 1
    simp only [rk4, map_add, map_smul]
    module
  · intro n
    obtain ⟨w, e, hw⟩ := steps_spec (f := rungeKutta4 D t) (g := rk4 A t) (fun w u hw => rk_spec hs hw hD t) n v u h
    refine ⟨w, _, e, hw, ?_⟩
    rw [show rk4 (⇑A) t = fun u => taylor 5 (t • A) u from funext (rk4_linear A t), iterate_apply]
    simpa [Nat.factorial] using exp_steps A t 5 n u

/-- The same for `midpointMethod`, whose error is of the third order. -/
theorem C87_midpoint_partial [CompleteSpace E] {N : Nat} {D : Vec E → Res (Vec E)} {v : Vec E} (hs : Start v N) {u : Fin N → E} (h : Holds v u v)
    (A : (Fin N → E) →L[ℝ] (Fin N → E)) (hD : Deriv D v A) (t : ℝ) :
    (∃ w, midpointMethod D t v = .ok w ∧ Holds v (u + t • A u + (t ^ 2 / 2) • A (A u)) w) ∧
    ∀ n : Nat, ∃ w u', steps (midpointMethod D t) n v = .ok w ∧ Holds v u' w ∧
      ‖u' - NormedSpace.exp ((n * t) • A) u‖ ≤ n * ((|t| * ‖A‖) ^ 3 / 6 * Real.exp (n * (|t| * ‖A‖))) * ‖u‖ := by
  constructor
  · obtain ⟨w, e, hw⟩ := mid_spec hs h hD t
    refine ⟨w, e, ?_⟩
    convert hw using 1
    simp only [mid, map_add, map_smul]
    module
  · intro n
    obtain ⟨w, e, hw⟩ := steps_spec (f := midpointMethod D t) (g := mid A t) (fun w u hw => mid_spec hs hw hD t) n v u h
    refine ⟨w, _, e, hw, ?_⟩
    rw [show mid (⇑A) t = fun u => taylor 3 (t • A) u from funext (mid_linear A t), iterate_apply]
    simpa [Nat.factorial] using exp_steps A t 3 n u

/-- A vector with fewer than two elements is refused, before the derivative is taken. -/
theorem C87_short (D : Vec E → Res (Vec E)) (t : ℝ) (v : Vec E) (h : v.length < 2) : rungeKutta4 D t v = .throw ∧ midpointMethod D t v = .throw := by
  have : sizeN v = .throw := by
    match v, h with
    | [], _ => rfl
    | [a], _ => cases a <;> simp [sizeN, lastN, atV, Res.bind]
  constructor
  · rw [rungeKutta4, this]; rfl
  · rw [midpointMethod, this]; rfl

/-- A default constructed element before the last tensor makes both functions follow a null pointer, when the derivative has the same elements as
the vector. The comment only asks that the vector be 1 indexed. -/
theorem C87_hole_counterexample (x : E) (t : ℝ) : rungeKutta4 (fun v => .ok v) t [none, none, some x] = .ub ∧
    midpointMethod (fun v => .ok v) t [none, none, some x] = .ub := by
  have : sizeN [none, none, some x] = .ok 2 := by simp [sizeN, lastN, atV, Res.bind]
  constructor
  · rw [rungeKutta4, this]; rfl
  · rw [midpointMethod, this]; rfl

end claims

/-- The derivative of three numbers: time, a number whose derivative is a polynomial of the time, and a number whose derivative has a product in it. -/
def field (a b c d α β : ℝ) (y : Fin 3 → ℝ) : Fin 3 → ℝ :=
  ![1, a + b * y 0 + c * y 0 ^ 2 + d * y 0 ^ 3, (α + β * y 0) * y 1]

/-- Equations that are not linear: if the exact solution is a polynomial of degree four, as it is here, then `rungeKutta4` gives it for every
step. The first case is the rule of Simpson. Together with the linear case this covers each of the eight order conditions. -/
theorem C87_cubic {D : Vec ℝ → Res (Vec ℝ)} {v : Vec ℝ} (hs : Start v 3) {u : Fin 3 → ℝ} (h : Holds v u v) (a b c d α β : ℝ)
    (hp : (α = 0 ∧ β = 0) ∨ (d = 0 ∧ (c = 0 ∨ β = 0))) (hD : Deriv D v (field a b c d α β)) (t : ℝ) :
    ∃ y : ℝ → Fin 3 → ℝ, y 0 = u ∧ (∀ s, HasDerivAt y (field a b c d α β (y s)) s) ∧ ∃ w, rungeKutta4 D t v = .ok w ∧ Holds v (y t) w := by
  obtain ⟨w, e, hw⟩ := rk_spec hs h hD t
  set x := u 0
  -- the derivative of the second number after time `s`
  let p0 := a + b * x + c * x ^ 2 + d * x ^ 3
  let p1 := b + 2 * c * x + 3 * d * x ^ 2
  let p2 := c + 3 * d * x
  let y1 : ℝ → ℝ := fun s => u 1 + (p0 * s + p1 * s ^ 2 / 2 + p2 * s ^ 3 / 3 + d * s ^ 4 / 4)
  let g := α + β * x
  let y2 : ℝ → ℝ := fun s => u 2 + (g * (u 1 * s + p0 * s ^ 2 / 2 + p1 * s ^ 3 / 6 + p2 * s ^ 4 / 12) + β * (u 1 * s ^ 2 / 2 + p0 * s ^ 3 / 3 + p1 * s ^ 4 / 8))
  have pw : ∀ (n : Nat) (s : ℝ), HasDerivAt (fun s : ℝ => s ^ (n + 1)) ((n + 1 : Nat) * s ^ n) s := fun n s => hasDerivAt_pow (n + 1) s
  refine ⟨fun s => ![x + s, y1 s, y2 s], ?_, ?_, w, e, ?_⟩
  · funext i
    fin_cases i <;> simp [x, y1, y2]
  · intro s
    rw [hasDerivAt_pi]
    intro i
    fin_cases i
    · simpa [field] using (hasDerivAt_id s).const_add x
    · have h0 : HasDerivAt y1 (p0 + p1 * s + p2 * s ^ 2 + d * s ^ 3) s := by
        have := (((((hasDerivAt_id s).const_mul p0).add (((pw 1 s).const_mul p1).div_const 2)).add (((pw 2 s).const_mul p2).div_const 3)).add
          (((pw 3 s).const_mul d).div_const 4)).const_add (u 1)
        exact this.congr_deriv (by simp; ring)
      refine h0.congr_deriv ?_
      simp [field, p0, p1, p2]
      ring
    · have h0 : HasDerivAt y2 (g * (u 1 + p0 * s + p1 * s ^ 2 / 2 + p2 * s ^ 3 / 3) + β * (u 1 * s + p0 * s ^ 2 + p1 * s ^ 3 / 2)) s := by
        have := (((((((hasDerivAt_id s).const_mul (u 1)).add (((pw 1 s).const_mul p0).div_const 2)).add (((pw 2 s).const_mul p1).div_const 6)).add
          (((pw 3 s).const_mul p2).div_const 12)).const_mul g).add ((((((pw 1 s).const_mul (u 1)).div_const 2).add (((pw 2 s).const_mul p0).div_const 3)).add
          (((pw 3 s).const_mul p1).div_const 8)).const_mul β)).const_add (u 2)
        exact this.congr_deriv (by simp; ring)
      refine h0.congr_deriv ?_
      simp [field, g, y1, p0, p1, p2]
      rcases hp with ⟨rfl, rfl⟩ | ⟨rfl, rfl | rfl⟩ <;> ring
  · convert hw using 1
    funext i
    fin_cases i
    · simp [rk4, field, x]
      ring
    · simp [rk4, field, x, y1, p0, p1, p2]
      ring
    · simp [rk4, field, x, y2, g, p0, p1, p2]
      rcases hp with ⟨rfl, rfl⟩ | ⟨rfl, rfl | rfl⟩ <;> ring

/-! ## Concrete cases -/

/-- The derivative `A` of the tensors at places 1 to `N`. -/
def derivOf {E : Type*} [AddCommGroup E] {N : Nat} (A : (Fin N → E) → Fin N → E) (w : Vec E) : Res (Vec E) :=
  .ok (none :: (List.ofFn (A fun i => (w.getD ((i : Nat) + 1) none).getD 0)).map some)

theorem derivOf_spec {E : Type*} [AddCommGroup E] {N : Nat} (A : (Fin N → E) → Fin N → E) (v : Vec E) : Deriv (derivOf A) v A := by
  intro w u h
  refine ⟨_, rfl, fun i => ?_⟩
  have : (fun i : Fin N => (w.getD ((i : Nat) + 1) none).getD 0) = u := by
    funext i
    rw [List.getD_eq_getElem?_getD, h.elem i]
    rfl
  rw [this]
  simp

theorem startOf {E : Type*} {N : Nat} (hN : 1 ≤ N) (u : Fin N → E) :
    Start (none :: ((List.ofFn u).map some ++ [none])) N ∧ Holds (none :: ((List.ofFn u).map some ++ [none])) u (none :: ((List.ofFn u).map some ++ [none])) := by
  refine ⟨⟨hN, by simp, fun i h1 h2 => ?_⟩, rfl, fun _ _ => rfl, fun i => ?_⟩
  · obtain rfl : i = N + 1 := by simp at h2; omega
    simp
  · rw [List.getElem?_cons_succ, List.getElem?_append_left (by simp)]
    simp

/-- Two numbers that turn about each other, with an empty element at the end of the vector: ten steps. -/
example (t : ℝ) : ∃ w u', steps (rungeKutta4 (derivOf fun y : Fin 2 → ℝ => Matrix.mulVec !![0, -1; 1, 0] y) t) 10 [none, some 1, some 0, none] = .ok w ∧
    Holds [none, some 1, some 0, none] u' w ∧ ‖u' - NormedSpace.exp ((((10 : Nat) : ℝ) * t) • (Matrix.mulVecLin !![0, -1; 1, (0 : ℝ)]).toContinuousLinearMap) ![1, 0]‖ ≤
      (10 : Nat) * ((|t| * ‖(Matrix.mulVecLin !![0, -1; 1, (0 : ℝ)]).toContinuousLinearMap‖) ^ 5 / 120 *
        Real.exp ((10 : Nat) * (|t| * ‖(Matrix.mulVecLin !![0, -1; 1, (0 : ℝ)]).toContinuousLinearMap‖))) * ‖![(1 : ℝ), 0]‖ :=
  have h := startOf (N := 2) (by omega) ![(1 : ℝ), 0]
  (C87_rk4_partial h.1 h.2 (Matrix.mulVecLin !![0, -1; 1, (0 : ℝ)]).toContinuousLinearMap (derivOf_spec _ _) t).2 10

/-- A product in the derivative. -/
example (t : ℝ) : ∃ y : ℝ → Fin 3 → ℝ, y 0 = ![1, 2, 3] ∧ (∀ s, HasDerivAt y (field 1 1 0 0 0 1 (y s)) s) ∧
    ∃ w, rungeKutta4 (derivOf (field 1 1 0 0 0 1)) t [none, some 1, some 2, some 3, none] = .ok w ∧ Holds [none, some 1, some 2, some 3, none] (y t) w :=
  have h := startOf (N := 3) (by omega) ![(1 : ℝ), 2, 3]
  C87_cubic h.1 h.2 1 1 0 0 0 1 (Or.inr ⟨rfl, Or.inl rfl⟩) (derivOf_spec _ _) t

/-- No steps beyond one element are needed for the error to be seen: an empty vector. -/
example : rungeKutta4 (derivOf fun y : Fin 2 → ℝ => y) 1 [] = .throw := (C87_short _ _ _ (by simp)).1

end Verif.Integrators
