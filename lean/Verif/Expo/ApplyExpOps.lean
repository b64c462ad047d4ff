import Verif.Expo.PadeSeries
import Mathlib.Analysis.Normed.Algebra.MatrixExponential
import Mathlib.Analysis.InnerProductSpace.Adjoint
import Mathlib.Analysis.Calculus.MeanValue
import Mathlib.Analysis.InnerProductSpace.Projection.Basic
import Mathlib.Topology.Algebra.Module.FiniteDimension

/-!
# Exponentials of operators and of their compressions
-/

noncomputable section

namespace Verif.Expo

open scoped Nat
open NormedSpace

variable {𝕜 E : Type*} [RCLike 𝕜] [NormedAddCommGroup E] [InnerProductSpace 𝕜 E] [CompleteSpace E]

section Intertwine

attribute [local instance] Matrix.linftyOpNormedRing Matrix.linftyOpNormedAlgebra Matrix.linftyOpNormedAddCommGroup Matrix.linftyOpNormedSpace

/-- The exponential respects a linear map which intertwines a matrix with an operator. -/
theorem exp_intertwine {n : Nat} (V : (Fin n → 𝕜) →ₗ[𝕜] E) (K : E →L[𝕜] E) (T : Matrix (Fin n) (Fin n) 𝕜) (h : ∀ x, K (V x) = V (T.mulVec x)) (x : Fin n → 𝕜) :
    exp K (V x) = V ((exp T).mulVec x) := by
  have hk : ∀ k : Nat, (K ^ k) (V x) = V ((T ^ k).mulVec x) := by
    intro k
    induction k with
    | zero => simp
    | succ k ih => rw [pow_succ', mul_apply_eq_comp, ih, h, pow_succ', Matrix.mulVec_mulVec]
  have h1 := exp_series_hasSum_exp' (𝕂 := 𝕜) K
  have h1' := h1.mapL (ContinuousLinearMap.apply 𝕜 E (V x))
  have h2 := exp_series_hasSum_exp' (𝕂 := 𝕜) T
  let L : Matrix (Fin n) (Fin n) 𝕜 →ₗ[𝕜] E :=
    { toFun := fun M => V (M.mulVec x), map_add' := fun a b => by rw [Matrix.add_mulVec, map_add], map_smul' := fun c a => by rw [Matrix.smul_mulVec, map_smul]; rfl }
  have h2' := h2.mapL L.toContinuousLinearMap
  refine h1'.unique ?_
  have e : ∀ k : Nat, (ContinuousLinearMap.apply 𝕜 E (V x)) ((k ! : 𝕜)⁻¹ • K ^ k) = L.toContinuousLinearMap ((k ! : 𝕜)⁻¹ • T ^ k) := by
    intro k
    rw [map_smul, map_smul]
    congr 1
    exact hk k
  simp only [e]
  exact h2'

end Intertwine

/-- The difference of two exponentials. -/
theorem duhamel (B C : E →L[𝕜] E) (v : E) (c : ℝ)
    (hb : ∀ s : ℝ, 0 ≤ s → s ≤ 1 → ‖exp (((1 - s : ℝ) : 𝕜) • B) ((B - C) (exp (((s : ℝ) : 𝕜) • C) v))‖ ≤ c) : ‖exp B v - exp C v‖ ≤ c := by
  let _ : NormedAlgebra ℝ (E →L[𝕜] E) := NormedAlgebra.restrictScalars ℝ 𝕜 _
  let _ : NormedSpace ℝ E := NormedSpace.restrictScalars ℝ 𝕜 E
  have hsm : ∀ (r : ℝ) (X : E →L[𝕜] E), r • X = (r : 𝕜) • X := fun r X => rfl
  have hB : ∀ s : ℝ, HasDerivAt (fun s : ℝ => exp ((1 - s) • B)) (-(exp ((1 - s) • B) * B)) s := by
    intro s
    have h1 := hasDerivAt_exp_smul_const (𝕂 := ℝ) B (1 - s)
    have h2 : HasDerivAt (fun s : ℝ => 1 - s) (-1) s := by simpa using (hasDerivAt_id s).const_sub 1
    have h3 := h1.scomp s h2
    rw [neg_one_smul] at h3
    exact h3
  have hC : ∀ s : ℝ, HasDerivAt (fun s : ℝ => exp (s • C)) (C * exp (s • C)) s := fun s => hasDerivAt_exp_smul_const' (𝕂 := ℝ) C s
  have hd : ∀ s : ℝ, HasDerivAt (fun s : ℝ => exp ((1 - s) • B) * exp (s • C)) (-(exp ((1 - s) • B) * ((B - C) * exp (s • C)))) s := by
    intro s
    have := (hB s).mul (hC s)
    have e : -(exp ((1 - s) • B) * ((B - C) * exp (s • C))) = -(exp ((1 - s) • B) * B) * exp (s • C) + exp ((1 - s) • B) * (C * exp (s • C)) := by noncomm_ring
    rw [e]; exact this
  have hv : ∀ s : ℝ, HasDerivAt (fun s : ℝ => (exp ((1 - s) • B) * exp (s • C)) v) ((-(exp ((1 - s) • B) * ((B - C) * exp (s • C)))) v) s := by
    intro s
    exact (((ContinuousLinearMap.apply 𝕜 E v).restrictScalars ℝ).hasFDerivAt (x := exp ((1 - s) • B) * exp (s • C))).comp_hasDerivAt s (hd s)
  have hm := norm_image_sub_le_of_norm_deriv_le_segment_01' (C := c) (fun s _ => (hv s).hasDerivWithinAt) (by
    intro s hs
    have := hb s hs.1 hs.2.le
    rw [neg_apply, norm_neg, hsm, hsm]
    exact this)
  rw [norm_sub_rev]
  simpa using hm

/-- The exponential of a multiple of an operator. -/
theorem norm_exp_smul [Nontrivial E] (H : E →L[𝕜] E) (c : 𝕜) : ‖exp (c • H)‖ ≤ Real.exp (‖c‖ * ‖H‖) := by
  let _ : NormedAlgebra ℝ (E →L[𝕜] E) := NormedAlgebra.restrictScalars ℝ 𝕜 _
  exact (norm_exp_le_exp (c • H)).trans (by rw [norm_smul])

/-- A component of the exponential applied to a vector which the first powers do not reach. -/
theorem exp_component [Nontrivial E] (K : E →L[𝕜] E) (c : 𝕜) (u v : E) (hu : ‖u‖ = 1) (hv : ‖v‖ = 1) (m : Nat) (h : ∀ k < m, inner 𝕜 u ((K ^ k) v) = 0) :
    ‖inner 𝕜 u (exp (c • K) v)‖ ≤ (‖c‖ * ‖K‖) ^ m / (m ! : ℝ) * Real.exp (‖c‖ * ‖K‖) := by
  have h1 := (exp_series_hasSum_exp' (𝕂 := 𝕜) (c • K)).mapL (ContinuousLinearMap.apply 𝕜 E v)
  have h2 := h1.mapL (innerSL 𝕜 u)
  have h3 : HasSum (fun k : Nat => inner 𝕜 u (((k ! : 𝕜)⁻¹ • (c • K) ^ k) v)) (inner 𝕜 u (exp (c • K) v)) := h2
  have hx : 0 ≤ ‖c‖ * ‖K‖ := by positivity
  generalize hxd : ‖c‖ * ‖K‖ = x at *
  have h4 := ((hasSum_exp_shift (x : ℝ) m).mul_left (1 / (m ! : ℝ)))
  rw [← Real.exp_eq_exp_ℝ] at h4
  have e : x ^ m / (m ! : ℝ) * Real.exp x = 1 / (m ! : ℝ) * (x ^ m * Real.exp x) := by ring
  rw [e, ← h3.tsum_eq]
  refine tsum_of_norm_bounded h4 fun k => ?_
  rw [smul_apply, inner_smul_right, smul_pow, smul_apply, inner_smul_right]
  by_cases hk : k < m
  · rw [h k hk]
    simp only [mul_zero, norm_zero]
    have : rf k m = 0 := by unfold rf; rw [if_neg (by omega)]
    rw [this]; simp
  · have hrf : rf k m = 1 / ((k - m)! : ℝ) := by unfold rf; rw [if_pos (by omega)]
    rw [hrf, norm_mul, norm_mul, norm_inv, norm_pow, RCLike.norm_natCast, smul_eq_mul]
    have hin : ‖inner 𝕜 u ((K ^ k) v)‖ ≤ ‖K‖ ^ k := by
      refine (norm_inner_le_norm _ _).trans ?_
      rw [hu, one_mul]
      refine ((K ^ k).le_opNorm v).trans ?_
      rw [hv, mul_one]
      exact norm_pow_le K k
    have hf : (m ! : ℝ) * ((k - m)! : ℝ) ≤ (k ! : ℝ) := by
      have := Nat.factorial_mul_factorial_dvd_factorial (show m ≤ k by omega)
      exact_mod_cast Nat.le_of_dvd (Nat.factorial_pos k) this
    calc (k ! : ℝ)⁻¹ * (‖c‖ ^ k * ‖inner 𝕜 u ((K ^ k) v)‖) ≤ (k ! : ℝ)⁻¹ * (‖c‖ ^ k * ‖K‖ ^ k) := by gcongr
      _ = x ^ k / (k ! : ℝ) := by rw [← mul_pow, hxd]; ring
      _ ≤ x ^ k / ((m ! : ℝ) * ((k - m)! : ℝ)) := by
          refine div_le_div_of_nonneg_left (by positivity) (by positivity) hf
      _ = 1 / (m ! : ℝ) * (1 / ((k - m)! : ℝ) * x ^ k) := by field_simp

/-- The exponential of an imaginary multiple of a symmetric operator keeps lengths. -/
theorem exp_skew_norm (K : E →L[𝕜] E) (hK : IsSelfAdjoint K) (c : 𝕜) (hc : RCLike.re c = 0) (v : E) : ‖exp (c • K) v‖ = ‖v‖ := by
  have hsk : c • K ∈ skewAdjoint (E →L[𝕜] E) := by
    rw [skewAdjoint.mem_iff, star_smul, hK.star_eq, ← neg_smul]
    congr 1
    have : (starRingEnd 𝕜) c = -c := by
      apply RCLike.ext
      · simp [hc]
      · simp
    exact this
  let _ : NormedAlgebra ℚ (E →L[𝕜] E) := NormedAlgebra.restrictScalars ℚ 𝕜 _
  have hu := exp_mem_unitary_of_mem_skewAdjoint hsk
  have h1 := (Unitary.mem_iff.1 hu).1
  have h2 : inner 𝕜 (exp (c • K) v) (exp (c • K) v) = inner 𝕜 v v := by
    rw [← ContinuousLinearMap.adjoint_inner_left, ← ContinuousLinearMap.star_eq_adjoint, ← mul_apply_eq_comp, h1, one_apply_eq_self]
  have h3 := inner_self_eq_norm_sq_to_K (𝕜 := 𝕜) (exp (c • K) v)
  rw [h2, inner_self_eq_norm_sq_to_K] at h3
  have h4 : ‖v‖ ^ 2 = ‖exp (c • K) v‖ ^ 2 := by exact_mod_cast h3
  exact ((sq_eq_sq₀ (norm_nonneg _) (norm_nonneg _)).1 h4).symm

end Verif.Expo
