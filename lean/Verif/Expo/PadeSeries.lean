import Mathlib.Analysis.Normed.Algebra.Exponential
import Mathlib.Analysis.SpecialFunctions.Exponential
import Mathlib.Analysis.Complex.ExponentialBounds
import Mathlib.Algebra.BigOperators.Field

/-!
# The Padé approximants of the exponential in a Banach algebra
-/

noncomputable section

namespace Verif.Expo

open scoped Nat
open NormedSpace

/-- `1/(n-j)!`, zero for `j > n`. -/
def rf (n j : Nat) : ℝ := if j ≤ n then 1 / ((n - j)! : ℝ) else 0

/-- Falling factorial of a real number. -/
def ff (d : ℝ) : Nat → ℝ
  | 0 => 1
  | q + 1 => ff d q * (d - q)

theorem rf_succ (n j : Nat) : rf (n + 1) (j + 1) = rf n j := by
  unfold rf; simp [Nat.add_sub_add_right]

theorem rf_zero (n : Nat) : rf n 0 = 1 / (n ! : ℝ) := by simp [rf]

theorem rf_zero_succ (j : Nat) : rf 0 (j + 1) = 0 := by simp [rf]

/-- The alternating sum which gives the coefficients of the remainder. -/
theorem alt_sum (q a n : Nat) (hq : q ≤ a) :
    ∑ j ∈ Finset.range (q + 1), (-1) ^ j * (q.choose j : ℝ) * ((a - j)! : ℝ) * rf n j = ff ((a : ℝ) - n) q * ((a - q)! : ℝ) / (n ! : ℝ) := by
  induction q generalizing a n with
  | zero => simp [ff, rf_zero, div_eq_mul_inv]
  | succ q ih =>
    rw [Finset.sum_range_succ']
    have e1 : ∀ j ∈ Finset.range (q + 1), (-1 : ℝ) ^ (j + 1) * ((q + 1).choose (j + 1) : ℝ) * ((a - (j + 1))! : ℝ) * rf n (j + 1)
        = (-1 : ℝ) ^ (j + 1) * (q.choose (j + 1) : ℝ) * ((a - (j + 1))! : ℝ) * rf n (j + 1) + -((-1 : ℝ) ^ j * (q.choose j : ℝ) * ((a - 1 - j)! : ℝ) * rf n (j + 1)) := by
      intro j _
      rw [Nat.choose_succ_succ, Nat.sub_sub, Nat.add_comm 1 j]
      push_cast; ring
    rw [Finset.sum_congr rfl e1, Finset.sum_add_distrib, Finset.sum_neg_distrib]
    have e2 : ∑ j ∈ Finset.range (q + 1), (-1 : ℝ) ^ (j + 1) * (q.choose (j + 1) : ℝ) * ((a - (j + 1))! : ℝ) * rf n (j + 1)
        + (-1 : ℝ) ^ 0 * ((q + 1).choose 0 : ℝ) * ((a - 0)! : ℝ) * rf n 0 = ff ((a : ℝ) - n) q * ((a - q)! : ℝ) / (n ! : ℝ) := by
      rw [← ih a n (by omega), Finset.sum_range_succ, Finset.sum_range_succ' _ q]
      simp
    obtain ⟨b, rfl⟩ : ∃ b, a = b + 1 := ⟨a - 1, by omega⟩
    cases n with
    | zero =>
      simp only [rf_zero_succ, mul_zero, Finset.sum_const_zero, neg_zero, add_zero] at e2 ⊢
      rw [zero_add] at e2 ⊢
      have e3 : (((b + 1 - q)! : ℕ) : ℝ) = ((b : ℝ) + 1 - q) * ((b - q)! : ℝ) := by
        rw [show b + 1 - q = (b - q) + 1 by omega, Nat.factorial_succ]
        push_cast [Nat.cast_sub (show q ≤ b by omega)]; ring
      have e4 : ((-1 : ℝ) ^ 0 * ((q + 1).choose 0 : ℝ) * ((b + 1 - 0)! : ℝ) * rf 0 0) = ff (((b + 1 : ℕ) : ℝ) - (0 : ℕ)) q * ((b + 1 - q)! : ℝ) / ((0 : ℕ)! : ℝ) := e2
      rw [e4, e3, show b + 1 - (q + 1) = b - q by omega]
      simp only [ff]
      push_cast
      ring
    | succ m =>
      have e5 := ih b m (by omega)
      simp only [rf_succ] at e2 ⊢
      rw [Nat.add_sub_cancel, e5]
      have e3 : (((b + 1 - q)! : ℕ) : ℝ) = ((b : ℝ) + 1 - q) * ((b - q)! : ℝ) := by
        rw [show b + 1 - q = (b - q) + 1 by omega, Nat.factorial_succ]
        push_cast [Nat.cast_sub (show q ≤ b by omega)]; ring
      have e6 : ∀ x y z w : ℝ, x + z = w → x + -y + z = w - y := by intros; linarith
      rw [e6 _ _ _ _ e2, e3, show b + 1 - (q + 1) = b - q by omega, Nat.factorial_succ]
      have hm : ((m ! : ℕ) : ℝ) ≠ 0 := by positivity
      have hm1 : ((m : ℝ) + 1) ≠ 0 := by positivity
      simp only [ff]
      push_cast
      rw [show (b : ℝ) + 1 - (m + 1) = b - m by ring]
      field_simp
      ring

/-- The coefficients of the approximant. -/
def pc (q k : Nat) : ℝ := ((2 * q - k)! : ℝ) * (q.choose k : ℝ) / ((2 * q)! : ℝ)

theorem ff_nonneg_big (q : Nat) (d : Nat) : ff ((d : ℝ)) q = (d.descFactorial q : ℝ) := by
  induction q with
  | zero => simp [ff]
  | succ q ih =>
    rw [ff, ih, Nat.descFactorial_succ]
    by_cases h : q ≤ d
    · push_cast [Nat.cast_sub h]; ring
    · rw [Nat.descFactorial_eq_zero_iff_lt.2 (by omega)]; simp

theorem ff_neg (q : Nat) (m : Nat) : ff (-((m : ℝ) + 1)) q = (-1) ^ q * ((m + q)! : ℝ) / (m ! : ℝ) := by
  induction q with
  | zero =>
    have : ((m ! : ℕ) : ℝ) ≠ 0 := by positivity
    simp [ff, this]
  | succ q ih =>
    rw [ff, ih, ← Nat.add_assoc, Nat.factorial_succ]
    push_cast; ring

/-- The coefficient of the remainder. -/
def rc (q n : Nat) : ℝ := if n ≤ 2 * q then 0 else (-1) ^ q * ((n - q - 1)! : ℝ) * (q ! : ℝ) / (((n - 2 * q - 1)! : ℝ) * (n ! : ℝ) * ((2 * q)! : ℝ))

theorem pade_coef (q n : Nat) : ∑ j ∈ Finset.range (q + 1), (-1) ^ j * pc q j * rf n j = (if n ≤ q then pc q n else 0) + rc q n := by
  have h := alt_sum q (2 * q) n (by omega)
  have e : ∑ j ∈ Finset.range (q + 1), (-1) ^ j * pc q j * rf n j
      = (∑ j ∈ Finset.range (q + 1), (-1) ^ j * (q.choose j : ℝ) * ((2 * q - j)! : ℝ) * rf n j) / ((2 * q)! : ℝ) := by
    rw [Finset.sum_div]
    refine Finset.sum_congr rfl fun j _ => ?_
    unfold pc; ring
  rw [e, h, show 2 * q - q = q by omega]
  by_cases h1 : n ≤ q
  · rw [if_pos h1, rc, if_pos (by omega), add_zero]
    have : ((2 * q : ℕ) : ℝ) - n = ((2 * q - n : ℕ) : ℝ) := by rw [Nat.cast_sub (by omega)]
    rw [this, ff_nonneg_big, pc]
    have e1 : ((2 * q - n - q)! : ℝ) * ((2 * q - n).descFactorial q : ℝ) = ((2 * q - n)! : ℝ) := by exact_mod_cast Nat.factorial_mul_descFactorial (show q ≤ 2 * q - n by omega)
    have e2 : (q.choose n : ℝ) * (n ! : ℝ) * ((q - n)! : ℝ) = (q ! : ℝ) := by exact_mod_cast Nat.choose_mul_factorial_mul_factorial h1
    rw [show 2 * q - n - q = q - n by omega] at e1
    rw [← e1, ← e2]
    have : ((n ! : ℕ) : ℝ) ≠ 0 := by positivity
    field_simp
  · rw [if_neg h1, zero_add]
    by_cases h2 : n ≤ 2 * q
    · rw [rc, if_pos h2]
      have : ((2 * q : ℕ) : ℝ) - n = ((2 * q - n : ℕ) : ℝ) := by rw [Nat.cast_sub (by omega)]
      rw [this, ff_nonneg_big, Nat.descFactorial_eq_zero_iff_lt.2 (by omega)]; simp
    · rw [rc, if_neg h2]
      obtain ⟨m, rfl⟩ : ∃ m, n = 2 * q + 1 + m := ⟨n - 2 * q - 1, by omega⟩
      have : ((2 * q : ℕ) : ℝ) - (2 * q + 1 + m : ℕ) = -((m : ℝ) + 1) := by push_cast; ring
      rw [this, ff_neg, show 2 * q + 1 + m - q - 1 = m + q by omega, show 2 * q + 1 + m - 2 * q - 1 = m by omega]
      field_simp

variable {𝔸 : Type*} [NormedRing 𝔸] [NormedAlgebra ℝ 𝔸] [CompleteSpace 𝔸]

omit [NormedAlgebra ℝ 𝔸] [CompleteSpace 𝔸] in
theorem _root_.HasSum.congr_fun' {f g : Nat → 𝔸} {a : 𝔸} (h : HasSum f a) (e : ∀ n, g n = f n) : HasSum g a := by
  rw [show g = f from funext e]; exact h

theorem hasSum_exp_shift (A : 𝔸) (j : Nat) : HasSum (fun n => rf n j • A ^ n) (A ^ j * exp A) := by
  have h := (exp_series_hasSum_exp' (𝕂 := ℝ) A).mul_left (A ^ j)
  have hinj : Function.Injective (fun i : Nat => i + j) := fun a b h => by simpa using h
  rw [← hinj.hasSum_iff]
  · refine h.congr_fun' fun i => ?_
    simp only [Function.comp, rf, if_pos (Nat.le_add_left j i), Nat.add_sub_cancel]
    rw [mul_smul_comm, ← pow_add, Nat.add_comm, one_div]
  · intro n hn
    have : ¬ j ≤ n := fun h => hn ⟨n - j, by simp; omega⟩
    simp [rf, this]

/-- Numerator. -/
def padeN (q : Nat) (A : 𝔸) : 𝔸 := ∑ j ∈ Finset.range (q + 1), pc q j • A ^ j
/-- Denominator. -/
def padeD (q : Nat) (A : 𝔸) : 𝔸 := ∑ j ∈ Finset.range (q + 1), ((-1) ^ j * pc q j) • A ^ j

theorem hasSum_rem (q : Nat) (A : 𝔸) : HasSum (fun n => rc q n • A ^ n) (padeD q A * exp A - padeN q A) := by
  have h1 : HasSum (fun n => ∑ j ∈ Finset.range (q + 1), ((-1) ^ j * pc q j) • (rf n j • A ^ n)) (∑ j ∈ Finset.range (q + 1), ((-1) ^ j * pc q j) • (A ^ j * exp A)) :=
    hasSum_sum fun j _ => (hasSum_exp_shift A j).const_smul _
  have h2 : HasSum (fun n => (if n ≤ q then pc q n else 0) • A ^ n) (padeN q A) := by
    have : HasSum (fun n => (if n ≤ q then pc q n else 0) • A ^ n) (∑ n ∈ Finset.range (q + 1), (if n ≤ q then pc q n else 0) • A ^ n) :=
      hasSum_sum_of_ne_finset_zero (by intro b hb; rw [Finset.mem_range] at hb; rw [if_neg (by omega), zero_smul])
    have e : padeN q A = ∑ n ∈ Finset.range (q + 1), (if n ≤ q then pc q n else 0) • A ^ n := ?_
    · rw [e]; exact this
    refine Finset.sum_congr rfl fun j hj => ?_
    rw [Finset.mem_range] at hj
    rw [if_pos (by omega)]
  have h3 := h1.sub h2
  have e : padeD q A * exp A = ∑ j ∈ Finset.range (q + 1), ((-1) ^ j * pc q j) • (A ^ j * exp A) := by
    rw [padeD, Finset.sum_mul]
    refine Finset.sum_congr rfl fun j _ => ?_
    rw [smul_mul_assoc]
  rw [e]
  refine h3.congr_fun' fun n => ?_
  simp only [smul_smul]
  rw [← Finset.sum_smul, pade_coef, add_smul, add_sub_cancel_left]

/-- The bound of the remainder. -/
def cq (q : Nat) : ℝ := ((q ! : ℕ) : ℝ) ^ 2 / (((2 * q)! : ℝ) * ((2 * q + 1)! : ℝ))

theorem rc_le (q n : Nat) : |rc q n| ≤ cq q * rf n (2 * q + 1) := by
  unfold rc
  split
  · rename_i h
    rw [abs_zero, rf, if_neg (by omega), mul_zero]
  · rename_i h
    obtain ⟨m, rfl⟩ : ∃ m, n = 2 * q + 1 + m := ⟨n - 2 * q - 1, by omega⟩
    rw [rf, if_pos (by omega), show 2 * q + 1 + m - (2 * q + 1) = m by omega, show 2 * q + 1 + m - q - 1 = q + m by omega,
      show 2 * q + 1 + m - 2 * q - 1 = m by omega, abs_div, abs_mul, abs_mul, abs_pow, abs_neg, abs_one, one_pow, one_mul,
      abs_of_nonneg (by positivity), abs_of_nonneg (by positivity), abs_of_nonneg (by positivity), cq]
    -- (q+m)!/(2q+1+m)! ≤ q!/(2q+1)!
    have key : ((q + m)! : ℝ) * ((2 * q + 1)! : ℝ) ≤ (q ! : ℝ) * ((2 * q + 1 + m)! : ℝ) := by
      norm_cast
      induction m with
      | zero => simp
      | succ m ih =>
        have ih := ih (by omega)
        rw [← Nat.add_assoc, ← Nat.add_assoc, Nat.factorial_succ, Nat.factorial_succ (2 * q + 1 + m)]
        calc (q + m + 1) * (q + m)! * (2 * q + 1)! = (q + m + 1) * ((q + m)! * (2 * q + 1)!) := by ring
          _ ≤ (2 * q + 1 + m + 1) * (q ! * (2 * q + 1 + m)!) := Nat.mul_le_mul (by omega) ih
          _ = _ := by ring
    rw [div_mul_div_comm, div_le_div_iff₀ (by positivity) (by positivity)]
    have : (0 : ℝ) ≤ (q ! : ℝ) * ((2 * q)! : ℝ) * (m ! : ℝ) := by positivity
    nlinarith [mul_le_mul_of_nonneg_left key this]

theorem norm_rem_le (q : Nat) (A : 𝔸) : ‖padeD q A * exp A - padeN q A‖ ≤ cq q * ‖A‖ ^ (2 * q + 1) * Real.exp ‖A‖ := by
  have h := (hasSum_exp_shift (‖A‖ : ℝ) (2 * q + 1)).mul_left (cq q)
  rw [← Real.exp_eq_exp_ℝ, ← mul_assoc] at h
  rw [← (hasSum_rem q A).tsum_eq]
  refine tsum_of_norm_bounded h fun n => ?_
  rw [norm_smul, Real.norm_eq_abs, smul_eq_mul, ← mul_assoc]
  by_cases hn : n = 0
  · subst hn; simp [rc, rf]
  · exact mul_le_mul (rc_le q n) (norm_pow_le' A (by omega)) (norm_nonneg _) (mul_nonneg (by unfold cq; positivity) (by unfold rf; split <;> positivity))

theorem pc_zero (q : Nat) : pc q 0 = 1 := by
  have : (((2 * q)! : ℕ) : ℝ) ≠ 0 := by positivity
  unfold pc; simp [this]

theorem pc_le (q k : Nat) : pc q k ≤ (1 / 2) ^ k * (1 / (k ! : ℝ)) := by
  by_cases hk : k ≤ q
  · have e2 : (q.choose k : ℝ) * (k ! : ℝ) = (q.descFactorial k : ℝ) := by
      rw [Nat.descFactorial_eq_factorial_mul_choose]; push_cast; ring
    have key : ∀ k ≤ q, (2 : ℝ) ^ k * ((2 * q - k)! : ℝ) * (q.descFactorial k : ℝ) ≤ ((2 * q)! : ℝ) := by
      intro k
      induction k with
      | zero => simp
      | succ k ih =>
        intro h
        have ih := ih (by omega)
        refine le_trans ?_ ih
        rw [Nat.descFactorial_succ, show 2 * q - k = (2 * q - (k + 1)) + 1 by omega, Nat.factorial_succ]
        push_cast [Nat.cast_sub (show k ≤ q by omega), Nat.cast_sub (show k + 1 ≤ 2 * q by omega)]
        have : (0 : ℝ) ≤ 2 ^ k * ((2 * q - (k + 1))! : ℝ) * (q.descFactorial k : ℝ) := by positivity
        have hk0 : (0 : ℝ) ≤ k := by positivity
        rw [pow_succ]
        nlinarith [mul_nonneg this hk0]
    have k1 := key k hk
    unfold pc
    rw [one_div, inv_pow, ← div_eq_inv_mul, div_div, div_le_div_iff₀ (by positivity) (by positivity)]
    rw [← e2] at k1
    nlinarith
  · unfold pc; rw [Nat.choose_eq_zero_of_lt (by omega)]; simp

theorem pc_nonneg (q k : Nat) : 0 ≤ pc q k := by unfold pc; positivity

omit [CompleteSpace 𝔸] in
/-- The denominator is close to one. -/
theorem norm_D_sub_one (q : Nat) (A : 𝔸) : ‖1 - padeD q A‖ ≤ Real.exp (‖A‖ / 2) - 1 := by
  rw [padeD, Finset.sum_range_succ']
  simp only [pow_zero, pc_zero, one_mul, one_smul, sub_add_cancel_right, norm_neg]
  refine (norm_sum_le _ _).trans ?_
  have h1 : ∀ j ∈ Finset.range q, ‖((-1) ^ (j + 1) * pc q (j + 1)) • A ^ (j + 1)‖ ≤ (‖A‖ / 2) ^ (j + 1) / ((j + 1)! : ℝ) := by
    intro j _
    rw [norm_smul, norm_mul, norm_pow, norm_neg, norm_one, one_pow, one_mul, Real.norm_eq_abs, abs_of_nonneg (pc_nonneg _ _)]
    calc pc q (j + 1) * ‖A ^ (j + 1)‖ ≤ ((1 / 2) ^ (j + 1) * (1 / ((j + 1)! : ℝ))) * ‖A‖ ^ (j + 1) :=
          mul_le_mul (pc_le _ _) (norm_pow_le' A (by omega)) (norm_nonneg _) (by positivity)
      _ = _ := by rw [div_pow, div_pow]; ring
  refine (Finset.sum_le_sum h1).trans ?_
  have h2 := Real.sum_le_exp_of_nonneg (x := ‖A‖ / 2) (by positivity) (q + 1)
  rw [Finset.sum_range_succ'] at h2
  simp only [pow_zero, Nat.factorial_zero, Nat.cast_one, div_one] at h2
  linarith

theorem norm_exp_le_exp [NormOneClass 𝔸] (A : 𝔸) : ‖exp A‖ ≤ Real.exp ‖A‖ := by
  have h := hasSum_exp_shift A 0
  have h' := hasSum_exp_shift (‖A‖ : ℝ) 0
  simp only [pow_zero, one_mul] at h h'
  rw [← Real.exp_eq_exp_ℝ] at h'
  rw [← h.tsum_eq]
  refine tsum_of_norm_bounded h' fun n => ?_
  rw [norm_smul, smul_eq_mul, Real.norm_eq_abs, abs_of_nonneg (by unfold rf; split <;> positivity)]
  exact mul_le_mul_of_nonneg_left (norm_pow_le A n) (by unfold rf; split <;> positivity)

omit [NormedAlgebra ℝ 𝔸] [CompleteSpace 𝔸] in
theorem norm_one_sub_pow [NormOneClass 𝔸] (G : 𝔸) (n : Nat) : ‖(1 - G) ^ n - 1‖ ≤ (1 + ‖G‖) ^ n - 1 := by
  induction n with
  | zero => simp
  | succ n ih =>
    have e : (1 - G) ^ (n + 1) - 1 = ((1 - G) ^ n - 1) * (1 - G) + -G := by rw [pow_succ]; noncomm_ring
    rw [e]
    have h1 : ‖1 - G‖ ≤ 1 + ‖G‖ := (norm_sub_le _ _).trans (by rw [norm_one])
    have h2 := (norm_mul_le ((1 - G) ^ n - 1) (1 - G)).trans (mul_le_mul ih h1 (norm_nonneg _) (by
      have := one_le_pow₀ (M₀ := ℝ) (a := 1 + ‖G‖) (by linarith [norm_nonneg G]) (n := n); linarith))
    refine (norm_add_le _ _).trans ?_
    rw [norm_neg, pow_succ]
    linarith

/-- The accuracy of scaling and squaring: when `‖A‖ < 1/2` the denominator is invertible and the power of the quotient is close to the exponential. -/
theorem pade_pow [NormOneClass 𝔸] (q : Nat) (A : 𝔸) (hA : ‖A‖ < 1 / 2) :
    ∃ u : 𝔸ˣ, (u : 𝔸) = padeD q A ∧ ∀ n : Nat, ‖((↑u⁻¹ : 𝔸) * padeN q A) ^ n - exp ((n : ℝ) • A)‖ ≤ ‖exp ((n : ℝ) • A)‖ * ((1 + 4 * cq q * (1 / 2) ^ (2 * q + 1)) ^ n - 1) := by
  have hexp14 : Real.exp (1 / 4) < 1.29 := by
    have h1 : Real.exp (1 / 4) ^ 4 = Real.exp 1 := by rw [← Real.exp_nat_mul]; norm_num
    by_contra h
    push Not at h
    have h2 : (1.29 : ℝ) ^ 4 ≤ Real.exp (1 / 4) ^ 4 := pow_le_pow_left₀ (by norm_num) h 4
    rw [h1] at h2
    have := Real.exp_one_lt_d9
    norm_num at h2
    linarith
  have hd : ‖1 - padeD q A‖ < 0.29 := by
    refine (norm_D_sub_one q A).trans_lt ?_
    have : Real.exp (‖A‖ / 2) ≤ Real.exp (1 / 4) := Real.exp_le_exp.2 (by linarith)
    linarith
  refine ⟨Units.oneSub (1 - padeD q A) (hd.trans (by norm_num)), by simp, ?_⟩
  set u := Units.oneSub (1 - padeD q A) (hd.trans (by norm_num)) with hu
  have hud : (u : 𝔸) = padeD q A := by simp [hu]
  clear_value u
  have hui : ‖(↑u⁻¹ : 𝔸)‖ ≤ 1.41 := by
    have e : (↑u⁻¹ : 𝔸) = 1 + (1 - padeD q A) * ↑u⁻¹ := by rw [← hud, sub_mul, Units.mul_inv, one_mul]; abel
    have h1 := (norm_add_le (1 : 𝔸) ((1 - padeD q A) * ↑u⁻¹)).trans (add_le_add_right (norm_mul_le _ _) _)
    rw [← e, norm_one] at h1
    nlinarith [norm_nonneg (↑u⁻¹ : 𝔸), norm_nonneg (1 - padeD q A)]
  set R := padeD q A * exp A - padeN q A with hR
  have hcA : ∀ B : 𝔸, Commute A B → Commute (exp A) B := fun B h => h.exp_left
  have hcD : Commute A (padeD q A) := by
    rw [padeD]; exact Commute.sum_right _ _ _ fun j _ => ((Commute.refl A).pow_right j).smul_right _
  have hcN : Commute A (padeN q A) := by
    rw [padeN]; exact Commute.sum_right _ _ _ fun j _ => ((Commute.refl A).pow_right j).smul_right _
  have hcu : Commute A (↑u⁻¹ : 𝔸) := (hud ▸ hcD : Commute A (u : 𝔸)).units_inv_right
  have hcR : Commute A R := (hcD.mul_right ((Commute.refl A).exp_right)).sub_right hcN
  set G := exp (-A) * (↑u⁻¹ * R) with hG
  let : NormedAlgebra ℚ 𝔸 := NormedAlgebra.restrictScalars ℚ ℝ 𝔸
  have hinv : exp A * exp (-A) = 1 := by
    have := exp_add_of_commute (x := A) (y := -A) ((Commute.refl A).neg_right)
    rw [add_neg_cancel, exp_zero] at this
    exact this.symm
  have hcG : Commute (exp A) G := hcA _ (((Commute.refl A).neg_right.exp_right).mul_right (hcu.mul_right hcR))
  have hr : (↑u⁻¹ : 𝔸) * padeN q A = exp A * (1 - G) := by
    have e1 : padeN q A = (u : 𝔸) * exp A - R := by rw [hR, hud]; abel
    have e2 : exp A * G = ↑u⁻¹ * R := by rw [hG, ← mul_assoc (exp A), hinv, one_mul]
    clear_value R
    rw [e1, mul_sub, Units.inv_mul_cancel_left, mul_sub, mul_one, e2]
  have hGn : ‖G‖ ≤ 4 * cq q * (1 / 2) ^ (2 * q + 1) := by
    have hcq : 0 ≤ cq q := by unfold cq; positivity
    have hR1 := norm_rem_le q A
    rw [← hR] at hR1
    have hexp : Real.exp ‖A‖ ≤ Real.exp (1 / 2) := Real.exp_le_exp.2 hA.le
    have he2 : Real.exp (1 / 2) * Real.exp (1 / 2) = Real.exp 1 := by rw [← Real.exp_add]; norm_num
    have hp : ‖A‖ ^ (2 * q + 1) ≤ (1 / 2) ^ (2 * q + 1) := pow_le_pow_left₀ (norm_nonneg _) hA.le _
    have hexpn : ‖exp (-A)‖ ≤ Real.exp (1 / 2) := (norm_exp_le_exp (-A)).trans (by rw [norm_neg]; exact hexp)
    calc ‖G‖ ≤ ‖exp (-A)‖ * (‖(↑u⁻¹ : 𝔸)‖ * ‖R‖) := (norm_mul_le _ _).trans (mul_le_mul_of_nonneg_left (norm_mul_le _ _) (norm_nonneg _))
      _ ≤ Real.exp (1 / 2) * (1.41 * (cq q * (1 / 2) ^ (2 * q + 1) * Real.exp (1 / 2))) := by
          refine mul_le_mul hexpn (mul_le_mul hui (hR1.trans ?_) (norm_nonneg _) (by norm_num)) (by positivity) (by positivity)
          exact mul_le_mul (mul_le_mul_of_nonneg_left hp hcq) hexp (by positivity) (by positivity)
      _ = 1.41 * Real.exp 1 * (cq q * (1 / 2) ^ (2 * q + 1)) := by rw [← he2]; ring
      _ ≤ 4 * (cq q * (1 / 2) ^ (2 * q + 1)) := by
          refine mul_le_mul_of_nonneg_right ?_ (by positivity)
          have := Real.exp_one_lt_d9
          linarith
      _ = _ := by ring
  intro n
  have hn : exp ((n : ℝ) • A) = exp A ^ n := by
    have e : (n : ℝ) • A = n • A := by rw [Nat.cast_smul_eq_nsmul]
    rw [e]
    exact exp_nsmul n A
  have hcG1 : Commute (exp A) (1 - G) := (Commute.one_right _).sub_right hcG
  rw [hr, hn, hcG1.mul_pow]
  have e : exp A ^ n * (1 - G) ^ n - exp A ^ n = exp A ^ n * ((1 - G) ^ n - 1) := by noncomm_ring
  rw [e]
  refine (norm_mul_le _ _).trans (mul_le_mul_of_nonneg_left ((norm_one_sub_pow G n).trans ?_) (norm_nonneg _))
  have := pow_le_pow_left₀ (a := 1 + ‖G‖) (by positivity) (add_le_add_right hGn 1) n
  linarith

end Verif.Expo
