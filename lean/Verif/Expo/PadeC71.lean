import Verif.Expo.Pade
import Verif.Expo.PadeSeries
import Mathlib.Analysis.Normed.Algebra.MatrixExponential
import Mathlib.LinearAlgebra.Matrix.Determinant.Basic

/-!
# The exponential of a matrix is accurate
-/

noncomputable section

namespace Verif.Expo

open scoped Nat
open NormedSpace

variable {𝕜 : Type*} [RCLike 𝕜] {N : Nat}

theorem coef_eq (q k : Nat) (h : k ≤ q) : coef q k = pc q k := by
  induction k with
  | zero => rw [coef, pc_zero]
  | succ k ih =>
    rw [coef, ih (by omega), pc, pc]
    have e1 : ((2 * q - k)! : ℝ) = (2 * (q : ℝ) - k) * ((2 * q - (k + 1))! : ℝ) := by
      rw [show 2 * q - k = (2 * q - (k + 1)) + 1 by omega, Nat.factorial_succ]
      push_cast [Nat.cast_sub (show k + 1 ≤ 2 * q by omega)]; ring
    have e2 : (q.choose (k + 1) : ℝ) * ((k : ℝ) + 1) = (q.choose k : ℝ) * ((q : ℝ) - k) := by
      have := Nat.choose_succ_right_eq q k
      have h' : ((q.choose (k + 1) * (k + 1) : ℕ) : ℝ) = ((q.choose k * (q - k) : ℕ) : ℝ) := by rw [this]
      push_cast [Nat.cast_sub (show k ≤ q by omega)] at h'
      exact h'
    have hq : (2 * (q : ℝ) - k) ≠ 0 := by
      have : (k : ℝ) + 1 ≤ q := by exact_mod_cast h
      have : (0 : ℝ) ≤ k := by positivity
      have : 0 < 2 * (q : ℝ) - k := by linarith
      exact this.ne'
    have hk : ((k : ℝ) + 1) ≠ 0 := by positivity
    have hf : ((2 * q)! : ℝ) ≠ 0 := by positivity
    rw [e1, div_mul_div_comm, div_eq_div_iff (by push_cast; rw [show 2 * (q : ℝ) + 1 - (k + 1) = 2 * q - k by ring]; positivity) hf]
    push_cast
    rw [show 2 * (q : ℝ) + 1 - (k + 1) = 2 * q - k by ring, show (q : ℝ) + 1 - (k + 1) = q - k by ring]
    linear_combination (-(2 * (q : ℝ) - k) * ((2 * q - (k + 1))! : ℝ) * ((2 * q)! : ℝ)) * e2

/-- The part of the polynomial built by the Horner rule: the terms `k`, `k+2`, …. -/
def hsum (c : Nat → ℝ) (q : Nat) (F2 : Mx 𝕜 N) (k : Nat) : Mx 𝕜 N :=
  if q < k then 0 else hsum c q F2 (k + 2) * F2 + c k • 1
  termination_by q + 1 - k

theorem hsum_big {c : Nat → ℝ} {q : Nat} {F2 : Mx 𝕜 N} {k : Nat} (h : q < k) : hsum c q F2 k = 0 := by rw [hsum, if_pos h]

theorem hsum_small {c : Nat → ℝ} {q : Nat} {F2 : Mx 𝕜 N} {k : Nat} (h : k ≤ q) : hsum c q F2 k = hsum c q F2 (k + 2) * F2 + c k • 1 := by
  rw [hsum, if_neg (by omega)]

theorem horner_spec (c : Nat → ℝ) (q : Nat) (F2 : Mx 𝕜 N) (k : Nat) (hk : k ≤ q) (odd : Bool) :
    ∃ odd', horner c F2 k odd (if odd then hsum c q F2 (k + 1) else hsum c q F2 k) (if odd then hsum c q F2 k else hsum c q F2 (k + 1))
      = (if odd' then hsum c q F2 1 else hsum c q F2 0, if odd' then hsum c q F2 0 else hsum c q F2 1, odd') := by
  induction k generalizing odd with
  | zero => exact ⟨odd, by simp [horner]⟩
  | succ k ih =>
    have e : hsum c q F2 k = hsum c q F2 (k + 2) * F2 + c k • 1 := hsum_small (by omega)
    cases odd with
    | true =>
      obtain ⟨o, ho⟩ := ih (by omega) false
      refine ⟨o, ?_⟩
      simp only [if_true, horner]
      rw [← ho]
      simp only [Bool.false_eq_true, if_false]
      rw [← e]
    | false =>
      obtain ⟨o, ho⟩ := ih (by omega) true
      refine ⟨o, ?_⟩
      simp only [Bool.false_eq_true, if_false, horner]
      rw [← ho]
      simp only [if_true]
      rw [← e]

theorem hsum_comm (c : Nat → ℝ) (q : Nat) (H F2 : Mx 𝕜 N) (h : Commute H F2) (k : Nat) : Commute H (hsum c q F2 k) := by
  induction k using hsum.induct q with
  | case1 k hk => rw [hsum_big hk]; exact Commute.zero_right _
  | case2 k hk ih => rw [hsum_small (by omega)]; exact (ih.mul_right h).add_right ((Commute.one_right _).smul_right _)

theorem hsum_sum (c : Nat → ℝ) (q : Nat) (H F2 : Mx 𝕜 N) (hF : F2 = H * H) (d k : Nat) (hd : q + 1 - k = d) :
    hsum c q F2 k + H * hsum c q F2 (k + 1) = ∑ i ∈ Finset.range d, c (k + i) • H ^ i := by
  induction d generalizing k with
  | zero => rw [hsum_big (by omega), hsum_big (by omega)]; simp
  | succ d ih =>
    have h1 := ih (k + 1) (by omega)
    have hc := hsum_comm c q H F2 (by rw [hF]; exact (Commute.refl H).mul_right (Commute.refl H)) (k + 2)
    rw [Finset.sum_range_succ', hsum_small (by omega)]
    have e : ∀ i ∈ Finset.range d, c (k + (i + 1)) • H ^ (i + 1) = H * (c (k + 1 + i) • H ^ i) := by
      intro i _
      rw [mul_smul_comm, ← pow_succ', show k + (i + 1) = k + 1 + i by omega]
    rw [Finset.sum_congr rfl e, ← Finset.mul_sum, ← h1, mul_add, pow_zero, add_zero]
    have e2 : hsum c q F2 (k + 2) * F2 = H * (H * hsum c q F2 (k + 2)) := by
      generalize hsum c q F2 (k + 2) = X at hc
      rw [hF, ← mul_assoc, ← hc.eq, mul_assoc, ← hc.eq]
    rw [e2]
    abel

section Norm

attribute [local instance] Matrix.linftyOpNormedRing Matrix.linftyOpNormedAlgebra Matrix.linftyOpNormedAddCommGroup Matrix.linftyOpNormedSpace

theorem hsum_N (q : Nat) (H : Mx 𝕜 N) : hsum (coef q) q (H * H) 0 + H * hsum (coef q) q (H * H) 1 = padeN q H := by
  rw [hsum_sum (coef q) q H (H * H) rfl (q + 1) 0 (by omega), padeN]
  refine Finset.sum_congr rfl fun i hi => ?_
  rw [Finset.mem_range] at hi
  rw [Nat.zero_add, coef_eq q i (by omega)]

theorem hsum_D (q : Nat) (H : Mx 𝕜 N) : hsum (coef q) q (H * H) 0 - H * hsum (coef q) q (H * H) 1 = padeD q H := by
  have h := hsum_sum (coef q) q (-H) (H * H) (by rw [neg_mul_neg]) (q + 1) 0 (by omega)
  rw [neg_mul, ← sub_eq_add_neg] at h
  rw [h, padeD]
  refine Finset.sum_congr rfl fun i hi => ?_
  rw [Finset.mem_range] at hi
  rw [Nat.zero_add, coef_eq q i (by omega), neg_pow, mul_comm ((-1 : ℝ) ^ i), mul_smul]
  congr 1
  rcases Nat.even_or_odd i with h | h
  · rw [h.neg_one_pow, h.neg_one_pow, one_mul, one_smul]
  · rw [h.neg_one_pow, h.neg_one_pow, neg_one_mul, neg_one_smul]

end Norm

theorem toInt_bounds (x : ℝ) : x - 1 < toInt x ∧ (toInt x : ℝ) < x + 1 := by
  unfold toInt
  split
  · exact ⟨by linarith [Int.le_ceil x], Int.ceil_lt_add_one x⟩
  · exact ⟨by linarith [Int.lt_floor_add_one x], by linarith [Int.floor_le x]⟩

/-- The scaling: the scaled matrix is smaller than one half, and the power of two is not too large. -/
theorem scaling_spec {x : ℝ} (hx : 0 < x) : x * (1 / 2) ^ scaling x < 1 / 2 ∧ (2 : ℝ) ^ scaling x ≤ 1 + 8 * x := by
  obtain ⟨L, hL⟩ : ∃ L, L = Real.log x / Real.log 2 := ⟨_, rfl⟩
  have hxL : x = (2 : ℝ) ^ L := by
    rw [hL, Real.rpow_def_of_pos (by norm_num), mul_div_cancel₀ _ (Real.log_pos (by norm_num)).ne', Real.exp_log hx]
  obtain ⟨b1, b2⟩ := toInt_bounds L
  have hs : ((scaling x : ℕ) : ℤ) = max 0 (toInt L + 2) := by
    rw [scaling, ← hL, Int.toNat_of_nonneg (le_max_left _ _)]
  have hsR : ((scaling x : ℕ) : ℝ) = max 0 ((toInt L : ℝ) + 2) := by
    have : (((scaling x : ℕ) : ℤ) : ℝ) = ((max 0 (toInt L + 2) : ℤ) : ℝ) := by rw [hs]
    push_cast at this
    exact this
  have hpow : (2 : ℝ) ^ scaling x = (2 : ℝ) ^ ((scaling x : ℕ) : ℝ) := (Real.rpow_natCast 2 _).symm
  constructor
  · rw [one_div_pow, mul_one_div, div_lt_iff₀ (by positivity), hpow]
    have : (1 / 2 : ℝ) * 2 ^ ((scaling x : ℕ) : ℝ) = 2 ^ (((scaling x : ℕ) : ℝ) - 1) := by
      rw [Real.rpow_sub (by norm_num), Real.rpow_one]; ring
    rw [this]
    conv_lhs => rw [hxL]
    refine Real.rpow_lt_rpow_of_exponent_lt (by norm_num) ?_
    rw [hsR]
    have := le_max_right (0 : ℝ) ((toInt L : ℝ) + 2)
    linarith
  · rcases le_total ((toInt L : ℝ) + 2) 0 with h | h
    · rw [max_eq_left h] at hsR
      rw [hpow, hsR, Real.rpow_zero]; linarith
    · rw [max_eq_right h] at hsR
      have : (2 : ℝ) ^ scaling x ≤ 2 ^ (L + 3) := by
        rw [hpow, hsR]
        exact Real.rpow_le_rpow_of_exponent_le (by norm_num) (by linarith)
      rw [Real.rpow_add (by norm_num), ← hxL] at this
      have e : (2 : ℝ) ^ (3 : ℝ) = 8 := by
        rw [show (3 : ℝ) = ((3 : ℕ) : ℝ) by norm_num, Real.rpow_natCast]; norm_num
      rw [e] at this
      linarith

theorem squarings_pow (k : Nat) (P : Mx 𝕜 N) : squarings k P = P ^ 2 ^ k := by
  induction k generalizing P with
  | zero => simp [squarings]
  | succ k ih => rw [squarings, ih, ← pow_two, ← pow_mul, pow_succ, mul_comm]

section Norm

attribute [local instance] Matrix.linftyOpNormedRing Matrix.linftyOpNormedAlgebra Matrix.linftyOpNormedAddCommGroup Matrix.linftyOpNormedSpace

theorem infNorm_eq (F : Mx 𝕜 N) : infNorm F = ‖F‖ := by rw [Matrix.linfty_opNorm_def, infNorm]

/-- What is proved: the outcome of `expPade` in terms of the Padé approximant. -/
theorem expPade_eq (F : Mx 𝕜 N) (q : Nat) (hq : 1 ≤ q) (hF : F ≠ 0) (u : (Mx 𝕜 N)ˣ)
    (hu : (u : Mx 𝕜 N) = padeD q (((1 / 2 : ℝ) ^ scaling (infNorm F)) • F)) :
    expPade F q = .ok (((↑u⁻¹ : Mx 𝕜 N) * padeN q (((1 / 2 : ℝ) ^ scaling (infNorm F)) • F)) ^ 2 ^ scaling (infNorm F)) := by
  have hn : infNorm F ≠ 0 := by rw [infNorm_eq]; exact norm_ne_zero_iff.2 hF
  unfold expPade
  rw [if_neg hn]
  dsimp only
  generalize scaling (infNorm F) = ns at *
  obtain ⟨sc, hsc⟩ : ∃ sc : ℝ, sc = (1 / 2) ^ ns := ⟨_, rfl⟩
  rw [← hsc] at hu ⊢
  obtain ⟨H, hH⟩ : ∃ H, H = sc • F := ⟨_, rfl⟩
  rw [← hH] at hu ⊢
  have hF2 : (sc * sc) • (F * F) = H * H := by rw [hH, smul_mul_smul_comm]
  obtain ⟨o, ho⟩ := horner_spec (coef q) q (H * H) (q - 1) (by omega) true
  simp only [if_true] at ho
  have e1 : hsum (coef q) q (H * H) (q - 1 + 1) = coef q q • 1 := by
    rw [show q - 1 + 1 = q by omega, hsum_small le_rfl, hsum_big (by omega), zero_mul, zero_add]
  have e2 : hsum (coef q) q (H * H) (q - 1) = coef q (q - 1) • 1 := by
    rw [hsum_small (by omega), hsum_big (by omega), zero_mul, zero_add]
  rw [e1, e2] at ho
  rw [hF2, ho]
  dsimp only
  have hN := hsum_N q H
  have hD := hsum_D q H
  have hc : Commute H (hsum (coef q) q (H * H) 1) := hsum_comm _ _ _ _ ((Commute.refl H).mul_right (Commute.refl H)) _
  generalize hsum (coef q) q (H * H) 0 = E0 at *
  generalize hsum (coef q) q (H * H) 1 = E1 at *
  have hsE : ∀ E : Mx 𝕜 N, (sc • E) * F = E * H := fun E => by rw [hH, smul_mul_assoc, mul_smul_comm]
  have hinv : (↑u⁻¹ : Mx 𝕜 N) = (padeD q H)⁻¹ := by rw [← hu, Matrix.coe_units_inv]
  have hdet : (padeD q H).det ≠ 0 := by
    rw [← hu]; exact ((Matrix.isUnit_iff_isUnit_det _).1 u.isUnit).ne_zero
  have huu : (↑u⁻¹ : Mx 𝕜 N) * padeD q H = 1 := by rw [← hu, Units.inv_mul]
  cases o with
  | false =>
    simp only [Bool.false_eq_true, if_false, and_false]
    rw [hsE, ← hc.eq, hD, if_neg hdet, squarings_pow, ← hinv]
    congr 2
    rw [← hN]
    have : (2 : ℝ) • (↑u⁻¹ * (H * E1)) + 1 = (↑u⁻¹ : Mx 𝕜 N) * ((H * E1) + (H * E1) + padeD q H) := by
      rw [mul_add, huu, two_smul, mul_add]
    rw [this, ← hD]
    congr 1
    abel
  | true =>
    simp only [if_true, and_true]
    rw [hsE, ← hc.eq]
    have hneg : H * E1 - E0 = -padeD q H := by rw [← hD]; abel
    have hdet' : (-padeD q H).det ≠ 0 := by
      have : IsUnit (-(u : Mx 𝕜 N)) := u.isUnit.neg
      rw [hu] at this
      exact ((Matrix.isUnit_iff_isUnit_det _).1 this).ne_zero
    have hinv' : (-padeD q H)⁻¹ = -(↑u⁻¹ : Mx 𝕜 N) := by
      refine Matrix.inv_eq_left_inv ?_
      rw [neg_mul_neg, huu]
    rw [hneg, if_neg hdet', squarings_pow, hinv']
    have hX : (2 : ℝ) • (-(↑u⁻¹ : Mx 𝕜 N) * E0) + 1 = -((↑u⁻¹ : Mx 𝕜 N) * padeN q H) := by
      have : (2 : ℝ) • (-(↑u⁻¹ : Mx 𝕜 N) * E0) + 1 = -((↑u⁻¹ : Mx 𝕜 N) * (E0 + E0 - padeD q H)) := by
        rw [mul_sub, huu, two_smul, mul_add, neg_mul]; abel
      rw [this, ← hD, ← hN]
      congr 2
      abel
    rw [hX]
    congr 1
    by_cases hns : ns = 0
    · rw [if_pos hns, neg_neg]
    · rw [if_neg hns]
      have : Even (2 ^ ns) := (Nat.even_pow.2 ⟨even_two, hns⟩)
      exact this.neg_pow _

end Norm

/-- The relative error of one Padé step of degree `q`. -/
def stepErr (q : Nat) : ℝ := 4 * (((q ! : ℕ) : ℝ) ^ 2 / (((2 * q)! : ℝ) * ((2 * q + 1)! : ℝ))) * (1 / 2) ^ (2 * q + 1)

section Norm

attribute [local instance] Matrix.linftyOpNormedRing Matrix.linftyOpNormedAlgebra Matrix.linftyOpNormedAddCommGroup Matrix.linftyOpNormedSpace

/-- **C71.** For every matrix which is not zero, `expMatrix` with any positive degree ends without error and returns the exponential up to a relative error, in the norm used by the code,
which grows only linearly with the norm of the matrix. -/
theorem C71_accuracy_partial (M : Mx 𝕜 N) (t : 𝕜) (q : Nat) (hq : 1 ≤ q) (hM : t • M ≠ 0) :
    ∃ X, expMatrix M t q = .ok X ∧ infNorm (X - exp (t • M)) ≤ infNorm (exp (t • M)) * (Real.exp (stepErr q * (1 + 8 * infNorm (t • M))) - 1) := by
  obtain ⟨F, hF⟩ : ∃ F, F = t • M := ⟨_, rfl⟩
  rw [← hF] at hM ⊢
  have hN : 1 ≤ N := by
    by_contra h
    have : N = 0 := by omega
    subst this
    exact hM (Subsingleton.elim _ _)
  have : Nonempty (Fin N) := ⟨⟨0, hN⟩⟩
  have hpos : 0 < infNorm F := by rw [infNorm_eq]; exact norm_pos_iff.2 hM
  obtain ⟨s1, s2⟩ := scaling_spec hpos
  obtain ⟨A, hA⟩ : ∃ A, A = ((1 / 2 : ℝ) ^ scaling (infNorm F)) • F := ⟨_, rfl⟩
  have hAn : ‖A‖ < 1 / 2 := by
    rw [hA, norm_smul, Real.norm_eq_abs, abs_of_nonneg (by positivity), mul_comm, ← infNorm_eq]
    exact s1
  obtain ⟨u, hu, hb⟩ := pade_pow q A hAn
  have hr := expPade_eq F q hq hM u (by rw [hu, hA])
  refine ⟨((↑u⁻¹ : Mx 𝕜 N) * padeN q (((1 / 2 : ℝ) ^ scaling (infNorm F)) • F)) ^ 2 ^ scaling (infNorm F), ?_, ?_⟩
  · unfold expMatrix
    rw [if_neg (by omega), if_neg (by omega), ← hF, Int.toNat_natCast]
    exact hr
  · have hb' := hb (2 ^ scaling (infNorm F))
    have e : ((2 ^ scaling (infNorm F) : ℕ) : ℝ) • A = F := by
      rw [hA, smul_smul]; push_cast
      rw [← mul_pow]; norm_num
    rw [e, hA] at hb'
    rw [infNorm_eq (_ - _), infNorm_eq (exp F)]
    refine hb'.trans (mul_le_mul_of_nonneg_left ?_ (norm_nonneg _))
    have h0 : 0 ≤ stepErr q := by unfold stepErr; positivity
    have h1 : (1 + stepErr q) ^ (2 ^ scaling (infNorm F)) ≤ Real.exp (stepErr q * (1 + 8 * infNorm F)) := by
      calc (1 + stepErr q) ^ (2 ^ scaling (infNorm F)) ≤ Real.exp (stepErr q) ^ (2 ^ scaling (infNorm F)) :=
            pow_le_pow_left₀ (by linarith) (by linarith [Real.add_one_le_exp (stepErr q)]) _
        _ = Real.exp (((2 ^ scaling (infNorm F) : ℕ) : ℝ) * stepErr q) := (Real.exp_nat_mul _ _).symm
        _ ≤ _ := by
            refine Real.exp_le_exp.2 ?_
            rw [mul_comm]
            refine mul_le_mul_of_nonneg_left ?_ h0
            push_cast
            exact s2
    have e3 : 4 * cq q * (1 / 2) ^ (2 * q + 1) = stepErr q := rfl
    rw [e3]
    linarith

end Norm

/-- **C71, the default degree.** The relative error per unit of the norm is below one in ten to the power fifteen. -/
theorem C71_default_partial (M : Mx 𝕜 N) (t : 𝕜) (hM : t • M ≠ 0) :
    ∃ X, expMatrix M t 6 = .ok X ∧ infNorm (X - exp (t • M)) ≤ infNorm (exp (t • M)) * (Real.exp ((1 + infNorm (t • M)) / 10 ^ 15) - 1) := by
  obtain ⟨X, h1, h2⟩ := C71_accuracy_partial M t 6 (by omega) hM
  refine ⟨X, h1, h2.trans ?_⟩
  have h0 : ∀ F : Mx 𝕜 N, 0 ≤ infNorm F := fun F => NNReal.coe_nonneg _
  refine mul_le_mul_of_nonneg_left ?_ (h0 _)
  have hs : stepErr 6 ≤ 1 / (8 * 10 ^ 15) := by
    unfold stepErr
    norm_num [Nat.factorial]
  have : stepErr 6 * (1 + 8 * infNorm (t • M)) ≤ (1 + infNorm (t • M)) / 10 ^ 15 := by
    have h := mul_le_mul_of_nonneg_right hs (show 0 ≤ 1 + 8 * infNorm (t • M) by linarith [h0 (t • M)])
    refine h.trans ?_
    rw [div_mul_eq_mul_div, div_le_div_iff₀ (by norm_num) (by norm_num)]
    nlinarith [h0 (t • M)]
  linarith [Real.exp_le_exp.2 this]

/-- **C71, the part which is false.** For the zero matrix, whose exponential is the identity, the code converts minus infinity to an integer. -/
theorem C71_zero_counterexample : expMatrix (1 : Mx ℝ 2) 0 6 = .ub := by
  unfold expMatrix expPade
  simp [infNorm]

/-- The hypotheses are met by a matrix which is not diagonal, and by complex time. -/
example : ∃ X, expMatrix (!![0, 1; 1, 0] : Mx ℂ 2) Complex.I 6 = .ok X ∧
    infNorm (X - exp (Complex.I • !![0, 1; 1, 0])) ≤ infNorm (exp (Complex.I • (!![0, 1; 1, 0] : Mx ℂ 2))) * (Real.exp ((1 + infNorm (Complex.I • (!![0, 1; 1, 0] : Mx ℂ 2))) / 10 ^ 15) - 1) :=
  C71_default_partial _ _ (by
    intro h
    have := congrFun (congrFun h 0) 1
    simp at this)

end Verif.Expo
