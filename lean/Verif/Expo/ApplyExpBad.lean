import Verif.Expo.ApplyExpC72
import Verif.Expo.PadeC71
import Mathlib.Analysis.CStarAlgebra.Matrix

/-!
# Where applyExp fails
-/

noncomputable section

namespace Verif.Expo

open scoped Nat
open NormedSpace

/-- A row which is a left eigenvector of the matrix, and the exponential. -/
theorem row_exp {n : Nat} (T : Matrix (Fin n) (Fin n) ℂ) (l : Fin n → ℂ) (μ : ℂ) (h : ∀ j, ∑ i, l i * T i j = μ * l j) (x : Fin n → ℂ) :
    ∑ i, l i * (exp T).mulVec x i = Complex.exp μ * ∑ i, l i * x i := by
  have hV : ∀ x, (∑ i, (LinearMap.proj i : (Fin n → ℂ) →ₗ[ℂ] ℂ).smulRight (l i)) x = ∑ i, l i * x i := by
    intro x; simp [mul_comm]
  have := exp_intertwine (E := ℂ) (∑ i, (LinearMap.proj i : (Fin n → ℂ) →ₗ[ℂ] ℂ).smulRight (l i)) (algebraMap ℂ (ℂ →L[ℂ] ℂ) μ) T (by
    intro x
    rw [hV, hV, ContinuousLinearMap.algebraMap_apply, smul_eq_mul]
    simp only [Matrix.mulVec, dotProduct, Finset.mul_sum]
    rw [Finset.sum_comm]
    refine Finset.sum_congr rfl fun j _ => ?_
    rw [← mul_assoc, ← h j, Finset.sum_mul]
    exact Finset.sum_congr rfl fun i _ => by ring) x
  rw [hV, hV, ← algebraMap_exp_comm, ContinuousLinearMap.algebraMap_apply, smul_eq_mul, ← Complex.exp_eq_exp_ℂ] at this
  exact this.symm

section Run
variable {E : Type*} [NormedAddCommGroup E] [InnerProductSpace ℂ E]

/-- The row sums give column 0 of an exponential. -/
theorem row_col0 {n : Nat} (T : Matrix (Fin n) (Fin n) ℂ) (l : Fin n → ℂ) (μ : ℂ) (h : ∀ j, ∑ i, l i * T i j = μ * l j) :
    ∑ i : Fin n, l i * col0 (exp T) i = Complex.exp μ * ∑ i, l i * e0 ℂ n i := by
  rw [← row_exp T l μ h]
  exact Finset.sum_congr rfl fun i _ => by rw [mulVec_e0]

/-- The extended matrix of the second iteration. -/
def badT : Nat → Nat → ℝ := extMat (setM (setM (setM (setM (setM (setM (fun _ _ => 0) 0 0 0) 1 0 (2 * Real.pi)) 0 1 (2 * Real.pi)) 1 1 0) 2 1 (√5 * Real.pi)) 1 2 (√5 * Real.pi)) 2

theorem bad_col : col0 (exp (Complex.I • subMat ℂ badT 4)) 0 = 1 ∧ col0 (exp (Complex.I • subMat ℂ badT 4)) 1 = 0 ∧ col0 (exp (Complex.I • subMat ℂ badT 4)) 2 = 0 := by
  have h1 := row_col0 (Complex.I • subMat ℂ badT 4) ![1, 1, 0, 0] (2 * Real.pi * Complex.I) (by
    intro j; fin_cases j <;> simp [Fin.sum_univ_four, subMat, badT, extMat, setM] <;> ring)
  have h2 := row_col0 (Complex.I • subMat ℂ badT 4) ![1, -1, 0, 0] (-(2 * Real.pi * Complex.I)) (by
    intro j; fin_cases j <;> simp [Fin.sum_univ_four, subMat, badT, extMat, setM] <;> ring)
  have h3 := row_col0 (Complex.I • subMat ℂ badT 4) ![√5 * Real.pi, 0, -(2 * Real.pi), 0] 0 (by
    intro j; fin_cases j <;> simp [Fin.sum_univ_four, subMat, badT, extMat, setM] <;> ring)
  rw [Complex.exp_two_pi_mul_I] at h1
  rw [Complex.exp_neg, Complex.exp_two_pi_mul_I] at h2
  rw [Complex.exp_zero] at h3
  simp [Fin.sum_univ_four, e0] at h1 h2 h3
  generalize exp (Complex.I • subMat ℂ badT 4) = X at *
  have a1 : col0 X 0 = 1 := by linear_combination (h1 + h2) / 2
  have a2 : col0 X 1 = 0 := by linear_combination (h1 - h2) / 2
  refine ⟨a1, a2, ?_⟩
  rw [a1] at h3
  have hpi : (Real.pi : ℂ) ≠ 0 := by exact_mod_cast Real.pi_ne_zero
  have : (-(2 * (Real.pi : ℂ))) * col0 X 2 = 0 := by linear_combination h3
  rcases mul_eq_zero.1 this with h | h
  · exact absurd h (by simpa using hpi)
  · exact h

/-- A run which stops in the second iteration with the vector it was given. -/
theorem bad_run (H : E → E) (a b c : E) (ho : ONup ℂ (fun i => if i = 0 then a else if i = 1 then b else c) 3)
    (ha : H a = ((2 * Real.pi : ℝ) : ℂ) • b) (hb : H b = ((2 * Real.pi : ℝ) : ℂ) • a + ((√5 * Real.pi : ℝ) : ℂ) • c) (o : AOpts) (ht : 0 < o.tol) (hbt : o.betaTol ≤ 1) (hm : 2 ≤ o.maxIter) :
    applyExp (𝕜 := ℂ) H (fun _ M => .ok (exp (Complex.I • M))) o a = .ok a := by
  have iaa : inner ℂ a a = 1 := by simpa using ho 0 0 (by omega) (by omega)
  have ibb : inner ℂ b b = 1 := by simpa using ho 1 1 (by omega) (by omega)
  have icc : inner ℂ c c = 1 := by simpa using ho 2 2 (by omega) (by omega)
  have iba : inner ℂ b a = 0 := by simpa using ho 1 0 (by omega) (by omega)
  have iab : inner ℂ a b = 0 := by simpa using ho 0 1 (by omega) (by omega)
  have icb : inner ℂ c b = 0 := by simpa using ho 2 1 (by omega) (by omega)
  have n1 : ∀ x : E, inner ℂ x x = 1 → ‖x‖ = 1 := by
    intro x hx
    rw [inner_self_eq_norm_sq_to_K, ← RCLike.ofReal_pow, ← RCLike.ofReal_one, RCLike.ofReal_inj] at hx
    nlinarith [norm_nonneg x]
  have na := n1 a iaa
  have nb := n1 b ibb
  have nc := n1 c icc
  have hpi := Real.two_le_pi
  have h5 : (2 : ℝ) ≤ √5 := by rw [Real.le_sqrt] <;> norm_num
  obtain ⟨k, hk⟩ : ∃ k, o.maxIter = k + 2 := ⟨o.maxIter - 2, by omega⟩
  have nr : ∀ (x : ℝ) (y : E), 0 ≤ x → ‖y‖ = 1 → ‖((x : ℝ) : ℂ) • y‖ = x := by
    intro x y hx hy
    rw [norm_smul, hy, mul_one, Complex.norm_real, Real.norm_eq_abs, abs_of_nonneg hx]
  unfold applyExp
  rw [na, if_neg one_ne_zero, hk]
  have e1 : (RCLike.ofReal (1 / 1 : ℝ) : ℂ) • a = a := by simp
  have r0 : RCLike.re (inner ℂ (H a) a) = 0 := by rw [ha, inner_smul_left, iba]; simp
  have w0 : H a - ((0 : ℝ) : ℂ) • a = ((2 * Real.pi : ℝ) : ℂ) • b := by rw [ha]; simp
  have m0 : ‖((2 * Real.pi : ℝ) : ℂ) • b‖ = 2 * Real.pi := nr _ _ (by linarith) nb
  have v1 : ((1 / (2 * Real.pi) : ℝ) : ℂ) • ((2 * Real.pi : ℝ) : ℂ) • b = b := by
    rw [smul_smul, ← Complex.ofReal_mul, one_div_mul_cancel (by linarith), Complex.ofReal_one, one_smul]
  have r1 : RCLike.re (inner ℂ (H b) b) = 0 := by rw [hb, inner_add_left, inner_smul_left, inner_smul_left, iab, icb]; simp
  have w1 : H b - ((0 : ℝ) : ℂ) • b - ((2 * Real.pi : ℝ) : ℂ) • a = ((√5 * Real.pi : ℝ) : ℂ) • c := by rw [hb]; simp
  have m1 : ‖((√5 * Real.pi : ℝ) : ℂ) • c‖ = √5 * Real.pi := nr _ _ (by positivity) nc
  have v2 : ((1 / (√5 * Real.pi) : ℝ) : ℂ) • ((√5 * Real.pi : ℝ) : ℂ) • c = c := by
    rw [smul_smul, ← Complex.ofReal_mul, one_div_mul_cancel (by positivity), Complex.ofReal_one, one_smul]
  have l1 : ¬ 2 * Real.pi < o.betaTol := by linarith
  have l2 : ¬ √5 * Real.pi < o.betaTol := by nlinarith
  have z1 : 2 * Real.pi ≠ 0 := by linarith
  have z2 : √5 * Real.pi ≠ 0 := by positivity
  dsimp only
  rw [e1]
  unfold lanLoop
  simp only [gt_iff_lt, lt_irrefl, if_false]
  rw [show (RCLike.re (inner ℂ (H a) a) : ℝ) = 0 from r0, show H a - (RCLike.ofReal (0 : ℝ) : ℂ) • a = _ from w0, m0, abs_of_nonneg (by linarith), if_neg l1, if_neg z1]
  rw [show ((RCLike.ofReal (1 / (2 * Real.pi) : ℝ) : ℂ)) • ((2 * Real.pi : ℝ) : ℂ) • b = b from v1]
  unfold lanLoop
  simp only [zero_add, gt_iff_lt, zero_lt_one, if_true]
  rw [show (RCLike.re (inner ℂ (H b) b) : ℝ) = 0 from r1, show H b - (RCLike.ofReal (0 : ℝ) : ℂ) • b - (RCLike.ofReal (2 * Real.pi) : ℂ) • a = _ from w1, m1, abs_of_nonneg (by positivity), if_neg l2, if_neg z2]
  rw [show ((RCLike.ofReal (1 / (√5 * Real.pi) : ℝ) : ℂ)) • ((√5 * Real.pi : ℝ) : ℂ) • c = c from v2]
  obtain ⟨c0, c1, c2⟩ := bad_col
  simp only [Res.bind]
  rw [show exp (Complex.I • subMat ℂ (extMat (setM (setM (setM (setM (setM (setM (fun _ _ => 0) 0 0 0) 1 0 (2 * Real.pi)) 0 1 (2 * Real.pi)) 1 1 0) (1 + 1) 1 (√5 * Real.pi)) 1 (1 + 1) (√5 * Real.pi)) (1 + 1)) (1 + 3)) = exp (Complex.I • subMat ℂ badT 4) from rfl]
  rw [if_pos]
  · simp [assemble, c0, c1, c2]
  · left
    rw [c2, mul_zero, norm_zero]
    unfold errEst
    rw [if_neg (by have := norm_nonneg ((RCLike.ofReal (1 : ℝ) : ℂ) * col0 (exp (Complex.I • subMat ℂ badT 4)) (1 + 2) * (RCLike.ofReal ‖H b‖ : ℂ)); linarith), if_neg (not_lt.2 (norm_nonneg _))]
    exact ht

/-- With one iteration the vector is not changed. -/
theorem bad_one (H : E → E) (a b : E) (na : ‖a‖ = 1) (nb : ‖b‖ = 1) (iba : inner ℂ b a = 0) (ha : H a = ((2 * Real.pi : ℝ) : ℂ) • b)
    (exm : (n : Nat) → Matrix (Fin n) (Fin n) ℂ → Res (Matrix (Fin n) (Fin n) ℂ)) (o : AOpts) (hbt : o.betaTol ≤ 1) (hm : o.maxIter = 1) :
    applyExp (𝕜 := ℂ) H exm o a = .ok a := by
  have hpi := Real.two_le_pi
  unfold applyExp
  rw [na, if_neg one_ne_zero, hm]
  have e1 : (RCLike.ofReal (1 / 1 : ℝ) : ℂ) • a = a := by simp
  have r0 : RCLike.re (inner ℂ (H a) a) = 0 := by rw [ha, inner_smul_left, iba]; simp
  have w0 : H a - ((0 : ℝ) : ℂ) • a = ((2 * Real.pi : ℝ) : ℂ) • b := by rw [ha]; simp
  have m0 : ‖((2 * Real.pi : ℝ) : ℂ) • b‖ = 2 * Real.pi := by
    rw [norm_smul, nb, mul_one, Complex.norm_real, Real.norm_eq_abs, abs_of_nonneg (by linarith)]
  have l1 : ¬ 2 * Real.pi < o.betaTol := by linarith
  have z1 : 2 * Real.pi ≠ 0 := by linarith
  dsimp only
  rw [e1]
  unfold lanLoop
  simp only [gt_iff_lt, lt_irrefl, if_false]
  rw [show (RCLike.re (inner ℂ (H a) a) : ℝ) = 0 from r0, show H a - (RCLike.ofReal (0 : ℝ) : ℂ) • a = _ from w0, m0, abs_of_nonneg (by linarith), if_neg l1, if_neg z1]
  unfold lanLoop
  rfl

end Run

/-- A Hermitian matrix with eigenvalues 0 and ±3π. -/
def badH : Matrix (Fin 3) (Fin 3) ℂ := !![0, 2 * Real.pi, 0; 2 * Real.pi, 0, √5 * Real.pi; 0, √5 * Real.pi, 0]

theorem badH_self : IsSelfAdjoint (Matrix.toEuclideanCLM (n := Fin 3) (𝕜 := ℂ) badH) := by
  have : star badH = badH := by
    ext i j
    rw [Matrix.star_apply]
    fin_cases i <;> fin_cases j <;> simp [badH]
  rw [IsSelfAdjoint, ← map_star, this]

/-- The vectors of the basis. -/
def bs (i : Fin 3) : EuclideanSpace ℂ (Fin 3) := EuclideanSpace.single i 1

theorem badH_0 : Matrix.toEuclideanCLM (n := Fin 3) (𝕜 := ℂ) badH (bs 0) = ((2 * Real.pi : ℝ) : ℂ) • bs 1 := by
  ext i
  rw [Matrix.ofLp_toEuclideanCLM]
  fin_cases i <;> simp [badH, bs, Matrix.mulVec, dotProduct, Fin.sum_univ_three]

theorem badH_1 : Matrix.toEuclideanCLM (n := Fin 3) (𝕜 := ℂ) badH (bs 1) = ((2 * Real.pi : ℝ) : ℂ) • bs 0 + ((√5 * Real.pi : ℝ) : ℂ) • bs 2 := by
  ext i
  rw [Matrix.ofLp_toEuclideanCLM]
  fin_cases i <;> simp [badH, bs, Matrix.mulVec, dotProduct, Fin.sum_univ_three]

theorem bs_norm (i : Fin 3) : ‖bs i‖ = 1 := by simp [bs]

theorem bs_inner (i j : Fin 3) : inner ℂ (bs i) (bs j) = if i = j then 1 else 0 := by
  simp [bs, EuclideanSpace.inner_single_left, EuclideanSpace.single_apply]

theorem exp_3pi : Complex.exp (3 * Real.pi * Complex.I) = -1 := by
  rw [show (3 * Real.pi * Complex.I : ℂ) = Real.pi * Complex.I + 2 * Real.pi * Complex.I by ring, Complex.exp_add, Complex.exp_pi_mul_I, Complex.exp_two_pi_mul_I, mul_one]

/-- The exponential moves the first vector of the basis by a distance of at least 9/10. -/
theorem badH_far : 9 / 10 ≤ ‖bs 0 - exp (Complex.I • Matrix.toEuclideanCLM (n := Fin 3) (𝕜 := ℂ) badH) (bs 0)‖ := by
  have h1 := exp_intertwine (E := EuclideanSpace ℂ (Fin 3)) (WithLp.linearEquiv 2 ℂ (Fin 3 → ℂ)).symm.toLinearMap (Complex.I • Matrix.toEuclideanCLM (n := Fin 3) (𝕜 := ℂ) badH) (Complex.I • badH)
    (by
      intro x
      rw [Matrix.smul_mulVec, map_smul]
      rfl) (e0 ℂ 3)
  have h2 : (WithLp.linearEquiv 2 ℂ (Fin 3 → ℂ)).symm.toLinearMap (e0 ℂ 3) = bs 0 := by
    ext i
    fin_cases i <;> simp [e0, bs]
  rw [h2] at h1
  rw [h1]
  have h3 := row_exp (Complex.I • badH) ![2, 3, √5] (3 * Real.pi * Complex.I) (by
    have h5 : (√5 : ℂ) * √5 = 5 := by rw [← Complex.ofReal_mul, Real.mul_self_sqrt (by norm_num)]; norm_num
    intro j; fin_cases j
    · simp [Fin.sum_univ_three, badH]; ring
    · simp [Fin.sum_univ_three, badH]; linear_combination (Complex.I * Real.pi) * h5
    · simp [Fin.sum_univ_three, badH]; ring) (e0 ℂ 3)
  rw [exp_3pi] at h3
  generalize (exp (Complex.I • badH)).mulVec (e0 ℂ 3) = y at *
  simp [Fin.sum_univ_three, e0] at h3
  obtain ⟨d, hd⟩ : ∃ d, d = bs 0 - (WithLp.linearEquiv 2 ℂ (Fin 3 → ℂ)).symm.toLinearMap y := ⟨_, rfl⟩
  obtain ⟨u, hu⟩ : ∃ u : EuclideanSpace ℂ (Fin 3), u = WithLp.toLp 2 (![2, 3, (√5 : ℂ)] : Fin 3 → ℂ) := ⟨_, rfl⟩
  have e1 : inner ℂ u d = 4 := by
    rw [hu, hd, PiLp.inner_apply]
    simp [Fin.sum_univ_three, bs]
    rw [show (starRingEnd ℂ) 2 = 2 from Complex.conj_ofReal 2, show (starRingEnd ℂ) 3 = 3 from Complex.conj_ofReal 3]
    linear_combination -h3
  have e2 : ‖u‖ ^ 2 = 18 := by
    rw [hu, EuclideanSpace.norm_sq_eq]
    simp [Fin.sum_univ_three]
    norm_num
  have e3 := norm_inner_le_norm (𝕜 := ℂ) u d
  rw [e1] at e3
  rw [← hd]
  have e4 : ‖(4 : ℂ)‖ = 4 := by simp
  rw [e4] at e3
  have e5 : ‖u‖ ≤ 17 / 4 := by
    by_contra h
    push Not at h
    nlinarith
  have e6 : 4 ≤ 17 / 4 * ‖d‖ := e3.trans (mul_le_mul_of_nonneg_right e5 (norm_nonneg _))
  linarith

/-- **C72, the tolerance.** However small the tolerance is, and however many iterations are allowed, the error can be close to one: the estimate of the error is zero although the exponentials
of the small matrices are exact. -/
theorem C72_tolerance_counterexample : ∃ (H : EuclideanSpace ℂ (Fin 3) →L[ℂ] EuclideanSpace ℂ (Fin 3)) (phi : EuclideanSpace ℂ (Fin 3)), IsSelfAdjoint H ∧ ‖phi‖ = 1 ∧
    ∀ o : AOpts, 0 < o.tol → o.betaTol ≤ 1 → 2 ≤ o.maxIter →
      ∃ out, applyExp (𝕜 := ℂ) H (fun _ M => .ok (exp (Complex.I • M))) o phi = .ok out ∧ 9 / 10 ≤ ‖out - exp (Complex.I • H) phi‖ := by
  refine ⟨_, bs 0, badH_self, bs_norm 0, fun o h1 h2 h3 => ⟨bs 0, ?_, badH_far⟩⟩
  refine bad_run _ (bs 0) (bs 1) (bs 2) ?_ badH_0 badH_1 o h1 h2 h3
  intro a b ha hb
  have e : ∀ k : Nat, k < 3 → ∃ i : Fin 3, i.val = k ∧ (if k = 0 then bs 0 else if k = 1 then bs 1 else bs 2) = bs i := by
    intro k hk
    refine ⟨⟨k, hk⟩, rfl, ?_⟩
    interval_cases k <;> rfl
  obtain ⟨i, hi, ei⟩ := e a ha
  obtain ⟨i', hi', ei'⟩ := e b hb
  dsimp only
  rw [ei, ei', bs_inner, ← hi, ← hi']
  simp [Fin.ext_iff]

/-- **C72, one iteration.** With `MaxIter` 1 the vector is returned as it was, and no warning is printed. -/
theorem C72_maxiter_counterexample : ∃ (H : EuclideanSpace ℂ (Fin 3) →L[ℂ] EuclideanSpace ℂ (Fin 3)) (phi : EuclideanSpace ℂ (Fin 3)), IsSelfAdjoint H ∧ ‖phi‖ = 1 ∧
    ∀ o : AOpts, o.betaTol ≤ 1 → o.maxIter = 1 →
      applyExp (𝕜 := ℂ) H (fun _ M => expMatrix M Complex.I 6) o phi = .ok phi ∧ 9 / 10 ≤ ‖phi - exp (Complex.I • H) phi‖ :=
  ⟨_, bs 0, badH_self, bs_norm 0, fun o h1 h2 => ⟨bad_one _ (bs 0) (bs 1) (bs_norm 0) (bs_norm 1) (by simp [bs_inner]) badH_0 _ o h1 h2, badH_far⟩⟩

/-- **C72, a vector in the kernel.** When `H φ` is zero, `exp(τ H) φ` is `φ`, but the exponential of the zero matrix is asked for, of which the logarithm of the norm is taken. -/
theorem C72_null_counterexample {𝕜 E : Type*} [RCLike 𝕜] [NormedAddCommGroup E] [InnerProductSpace 𝕜 E] (H : E →L[𝕜] E) (τ : 𝕜) (o : AOpts) (hb : 0 < o.betaTol) (hm : 1 ≤ o.maxIter)
    (phi : E) (hphi : phi ≠ 0) (h0 : H phi = 0) : applyExp H (fun _ M => expMatrix M τ 6) o phi = .ub := by
  obtain ⟨k, hk⟩ : ∃ k, o.maxIter = k + 1 := ⟨o.maxIter - 1, by omega⟩
  unfold applyExp
  rw [if_neg (norm_ne_zero_iff.2 hphi), hk]
  dsimp only
  unfold lanLoop
  have h1 : H (((1 / ‖phi‖ : ℝ) : 𝕜) • phi) = 0 := by rw [map_smul, h0, smul_zero]
  simp only [h1, inner_zero_left, map_zero, zero_smul, sub_zero, gt_iff_lt, lt_irrefl, if_false, norm_zero, abs_zero, hb, if_true]
  have h2 : subMat 𝕜 (setM (fun _ _ => 0) 0 0 0) (0 + 1) = 0 := by
    ext a b; simp [subMat, setM]
  rw [h2]
  unfold expMatrix expPade
  simp [infNorm, Res.bind]

/-- The hypotheses of the theorems are met by the matrix above. -/
example : ∃ out, applyExp (Matrix.toEuclideanCLM (n := Fin 3) (𝕜 := ℂ) badH) (fun _ M => expMatrix M Complex.I 6) ⟨0, 30, 1e-7⟩ (bs 0) = .ok out ∧
    |‖out‖ - 1| ≤ padeErr Complex.I (Matrix.toEuclideanCLM (n := Fin 3) (𝕜 := ℂ) badH) ⟨0, 30, 1e-7⟩ := by
  have hpi := Real.two_le_pi
  obtain ⟨out, h1, _, h2⟩ := C72_exhaust_partial (Matrix.toEuclideanCLM (n := Fin 3) (𝕜 := ℂ) badH) badH_self Complex.I Complex.I_ne_zero ⟨0, 30, 1e-7⟩ (by norm_num) (by norm_num)
    (by simp) le_rfl (bs 0) (by rw [← norm_ne_zero_iff, bs_norm]; exact one_ne_zero) (Or.inr (by
      rw [badH_0, norm_smul, bs_norm, bs_norm, Complex.norm_real, Real.norm_eq_abs, abs_of_nonneg (by linarith)]
      norm_num
      linarith))
  refine ⟨out, h1, ?_⟩
  have := (h2 (by simp)).1
  rwa [bs_norm, one_mul] at this

end Verif.Expo
