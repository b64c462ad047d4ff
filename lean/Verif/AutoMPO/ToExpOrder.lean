import Mathlib.Analysis.Normed.Algebra.Exponential
import Mathlib.Analysis.Analytic.Basic
import Mathlib.Tactic.Abel
import Mathlib.Tactic.Module
import Mathlib.Tactic.NoncommRing
import Mathlib.Analysis.Complex.Basic

/-!
# Approximations of the exponential to first and to second order
-/

namespace Verif.AutoMPO

open Asymptotics Filter Topology NormedSpace

variable {A : Type*} [NormedRing A] [NormedAlgebra ℂ A] [CompleteSpace A]

theorem pow_bigO {k n : Nat} (h : n ≤ k) : (fun t : ℂ => t ^ k) =O[𝓝 0] fun t => t ^ n := by
  refine IsBigO.of_bound 1 ?_
  filter_upwards [Metric.ball_mem_nhds (0 : ℂ) one_pos] with t ht
  rw [mem_ball_zero_iff] at ht
  rw [norm_pow, norm_pow, one_mul]
  exact pow_le_pow_of_le_one (norm_nonneg _) ht.le h

theorem smul_bigO {k n : Nat} (h : n ≤ k) (X : A) : (fun t : ℂ => t ^ k • X) =O[𝓝 0] fun t => t ^ n := by
  have h1 : (fun t : ℂ => t ^ k • X) =O[𝓝 0] fun t : ℂ => t ^ k := by
    refine IsBigO.of_bound ‖X‖ (Eventually.of_forall fun t => ?_)
    rw [norm_smul, mul_comm]
  exact h1.trans (pow_bigO h)

/-- The Taylor polynomials of the exponential. -/
theorem exp_bigO (H : A) (n : Nat) :
    (fun t : ℂ => exp (-t • H) - ∑ k ∈ Finset.range n, ((k.factorial : ℂ)⁻¹) • (-t • H) ^ k) =O[𝓝 0] fun t => t ^ n := by
  have h := (exp_hasFPowerSeriesAt_zero (𝕂 := ℂ) (𝔸 := A)).isBigO_sub_partialSum_pow n
  have ht : Tendsto (fun t : ℂ => -t • H) (𝓝 0) (𝓝 0) := by
    have : Continuous fun t : ℂ => -t • H := by fun_prop
    simpa using this.tendsto 0
  have h2 := h.comp_tendsto ht
  have h3 : ((fun y : A => ‖y‖ ^ n) ∘ fun t : ℂ => -t • H) =O[𝓝 0] fun t : ℂ => t ^ n := by
    refine IsBigO.of_bound (‖H‖ ^ n) (Eventually.of_forall fun t => ?_)
    simp only [Function.comp_apply, norm_smul, norm_neg, norm_pow, norm_mul, norm_norm]
    rw [mul_pow, mul_comm]
  refine (h2.trans h3).congr_left fun t => ?_
  simp only [Function.comp_apply, zero_add, FormalMultilinearSeries.partialSum, expSeries_apply_eq]

/-- A first order approximation. -/
theorem first_order {U : ℂ → A} {H R : A}
    (hU : (fun t => U t - (1 - t • H + t ^ 2 • R)) =O[𝓝 0] fun t : ℂ => t ^ 3) :
    (fun t => U t - exp (-t • H)) =O[𝓝 0] fun t : ℂ => t ^ 2 := by
  have h1 := exp_bigO H 2
  have h2 := ((hU.trans (pow_bigO (by norm_num : 2 ≤ 3))).add (smul_bigO (le_refl 2) R)).sub h1
  refine h2.congr_left fun t => ?_
  simp only [Finset.sum_range_succ, Finset.sum_range_zero, Nat.factorial, Nat.cast_one, inv_one, one_smul, pow_zero, pow_one,
    Nat.mul_one, neg_smul]
  abel

theorem comp_scale {U : ℂ → A} {H R : A} (hU : (fun t => U t - (1 - t • H + t ^ 2 • R)) =O[𝓝 0] fun t : ℂ => t ^ 3) (a : ℂ) :
    (fun t => U (a * t) - (1 - (a * t) • H + (a * t) ^ 2 • R)) =O[𝓝 0] fun t : ℂ => t ^ 3 := by
  have ht : Tendsto (fun t : ℂ => a * t) (𝓝 0) (𝓝 0) := by
    have : Continuous fun t : ℂ => a * t := by fun_prop
    simpa using this.tendsto 0
  refine (hU.comp_tendsto ht).trans ?_
  refine IsBigO.of_bound (‖a‖ ^ 3) (Eventually.of_forall fun t => ?_)
  simp [mul_pow]

/-- Two steps of a first order approximation by complex times give a second order approximation. -/
theorem second_order {U : ℂ → A} {H R : A}
    (hU : (fun t => U t - (1 - t • H + t ^ 2 • R)) =O[𝓝 0] fun t : ℂ => t ^ 3) {a b : ℂ} (hab : a + b = 1) (hab2 : a ^ 2 + b ^ 2 = 0) :
    (fun t => U (a * t) * U (b * t) - exp (-t • H)) =O[𝓝 0] fun t : ℂ => t ^ 3 := by
  have ha := comp_scale hU a
  have hb := comp_scale hU b
  have hm : a * b = 1 / 2 := by linear_combination (1 / 2) * (a + b + 1) * hab - (1 / 2) * hab2
  set P : ℂ → ℂ → A := fun c t => 1 - (c * t) • H + (c * t) ^ 2 • R with hP
  have hPc : ∀ c, Continuous (P c) := fun c => by simp only [hP]; fun_prop
  have hP1 : ∀ c, (P c) =O[𝓝 0] fun _ : ℂ => (1 : ℂ) := fun c => ((hPc c).tendsto 0).isBigO_one ℂ
  have hsmall : ∀ c, (fun t => U (c * t) - P c t) =O[𝓝 0] (fun t : ℂ => t ^ 3) → (fun t => U (c * t)) =O[𝓝 0] fun _ : ℂ => (1 : ℂ) := by
    intro c h
    have h1 : (fun t => U (c * t) - P c t) =O[𝓝 0] fun _ : ℂ => (1 : ℂ) := by
      refine h.trans ?_
      simpa using pow_bigO (by norm_num : 0 ≤ 3)
    refine (h1.add (hP1 c)).congr_left fun t => ?_
    abel
  have h1 : (fun t => (U (a * t) - P a t) * U (b * t)) =O[𝓝 0] fun t : ℂ => t ^ 3 := by
    simpa using ha.mul (hsmall b hb)
  have h2 : (fun t => P a t * (U (b * t) - P b t)) =O[𝓝 0] fun t : ℂ => t ^ 3 := by
    simpa using (hP1 a).mul hb
  have h3 : (fun t => P a t * P b t - ∑ k ∈ Finset.range 3, ((k.factorial : ℂ)⁻¹) • (-t • H) ^ k) =O[𝓝 0] fun t : ℂ => t ^ 3 := by
    have e : ∀ t, P a t * P b t - ∑ k ∈ Finset.range 3, ((k.factorial : ℂ)⁻¹) • (-t • H) ^ k =
        t ^ 3 • (-(a * b ^ 2) • (H * R) + (-(a ^ 2 * b)) • (R * H)) + t ^ 4 • ((a ^ 2 * b ^ 2) • (R * R)) := by
      intro t
      have e1 : P a t * P b t = 1 - ((a + b) * t) • H + ((a ^ 2 + b ^ 2) * t ^ 2) • R + (a * b * t ^ 2) • (H * H) +
          t ^ 3 • (-(a * b ^ 2) • (H * R) + (-(a ^ 2 * b)) • (R * H)) + t ^ 4 • ((a ^ 2 * b ^ 2) • (R * R)) := by
        simp only [hP, sub_mul, mul_sub, add_mul, mul_add, one_mul, mul_one, smul_mul_smul_comm]
        module
      rw [e1, hab, hab2, hm]
      simp only [Finset.sum_range_succ, Finset.sum_range_zero, Nat.factorial, Nat.cast_one, inv_one, one_smul, pow_zero,
        pow_one, Nat.mul_one, pow_two (-t • H), smul_mul_smul_comm]
      push_cast
      module
    exact ((smul_bigO (le_refl 3) _).add (smul_bigO (by norm_num : 3 ≤ 4) _)).congr_left fun t => (e t).symm
  have h4 := ((h1.add h2).add h3).sub (exp_bigO H 3)
  refine h4.congr_left fun t => ?_
  noncomm_ring

end Verif.AutoMPO
