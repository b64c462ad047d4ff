import Verif.Tensor.Orthog
import Mathlib.Tactic.NormNum.RealSqrt

/-!
# C110: examples, and a matrix whose columns are not orthonormal after `orthog`
-/

namespace Verif.Orthog

open Finset Function

/-- Real numbers and two rows; every random vector is (3/5,4/5). -/
noncomputable def realEnv : Env ℝ :=
  ⟨RingHom.id ℝ, fun v => √(v 0 * v 0 + v 1 * v 1), fun x => x < 1 / 10 ^ 10, fun _ => inferInstance, fun _ r => if r = 0 then 3 / 5 else 4 / 5, 2⟩

theorem realEnv_ok : realEnv.OK where
  sq v := by
    show √(v 0 * v 0 + v 1 * v 1) * √(v 0 * v 0 + v 1 * v 1) = ∑ r ∈ range 2, v r * v r
    rw [Real.mul_self_sqrt (add_nonneg (mul_self_nonneg _) (mul_self_nonneg _))]
    simp [sum_range_succ]
  real v := rfl
  small x h := by
    have h' : ¬ x < 1 / 10 ^ 10 := h
    intro e
    rw [e] at h'
    norm_num at h'
  rand n := by
    show √((if (0 : Nat) = 0 then (3 / 5 : ℝ) else 4 / 5) * (if (0 : Nat) = 0 then 3 / 5 else 4 / 5) + (if (1 : Nat) = 0 then 3 / 5 else 4 / 5) * (if (1 : Nat) = 0 then 3 / 5 else 4 / 5)) ≠ 0
    norm_num

/-- Columns (3,4) and (5,0). -/
def M1 (k r : Nat) : ℝ := if k = 0 then (if r = 0 then 3 else 4) else (if r = 0 then 5 else 0)

/-- Twice the column (1,0). -/
def M2 (_ r : Nat) : ℝ := if r = 0 then 1 else 0

theorem M1_draws : (realEnv.orthog 2 2 M1).2 = [] := by
  norm_num [Env.orthog, Env.column, Env.pass, Env.norml, Env.proj, Env.dot, realEnv, M1, List.range_succ, List.range'_succ, sum_range_succ, update]

example : ∀ i < 2, ∀ j < 2, realEnv.dot ((realEnv.orthog 2 2 M1).1 i) ((realEnv.orthog 2 2 M1).1 j) = if i = j then 1 else 0 :=
  (C110_orthonormal_partial realEnv_ok (fun _ => rfl) (ncols := 2) (np := 2) (by decide) M1 (by rw [M1_draws]; simp)).1

example : ∃ b : Nat → ℝ, b 1 ≠ 0 ∧ ∀ r, M1 1 r = ∑ k ∈ range 2, b k * (realEnv.orthog 2 2 M1).1 k r :=
  C110_span_partial realEnv_ok M1 M1_draws (by decide)

/-- With two passes a random vector drawn in the first is made orthogonal in the second. -/
theorem M2_draws : (realEnv.orthog 2 2 M2).2 = [(1, 1)] := by
  norm_num [Env.orthog, Env.column, Env.pass, Env.norml, Env.proj, Env.dot, realEnv, M2, List.range_succ, List.range'_succ, sum_range_succ, update]

example : ∀ i < 2, ∀ j < 2, realEnv.dot ((realEnv.orthog 2 2 M2).1 i) ((realEnv.orthog 2 2 M2).1 j) = if i = j then 1 else 0 :=
  (C110_orthonormal_partial realEnv_ok (fun _ => rfl) (ncols := 2) (np := 2) (by decide) M2 (by rw [M2_draws]; simp)).1

/-- **C110.** Two equal columns and one pass: the second column is replaced by a random vector after it was made orthogonal, and `--pass` does not make the loop go round again (algs.cc:393). The
columns of the result are not orthogonal. -/
theorem C110_random_counterexample : realEnv.OK ∧ realEnv.dot ((realEnv.orthog 2 1 M2).1 0) ((realEnv.orthog 2 1 M2).1 1) = 3 / 5 := by
  refine ⟨realEnv_ok, ?_⟩
  norm_num [Env.orthog, Env.column, Env.pass, Env.norml, Env.proj, Env.dot, realEnv, M2, List.range_succ, List.range'_succ, sum_range_succ, update]

end Verif.Orthog
