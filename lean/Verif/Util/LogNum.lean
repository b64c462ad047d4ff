import Verif.Base
import Mathlib.Analysis.SpecialFunctions.Log.Basic
import Mathlib.Analysis.SpecialFunctions.Pow.Real

/-!
# Numbers stored as sign and logarithm

Source: `/repo/itensor/real.h:67-336`. Numbers are real numbers, without rounding, overflow or NAN. Without `DEBUG`.
-/

namespace Verif.LogNum

/-- `LogNum`: `lognum_` and `sign_`. real.h:72-77 -/
@[ext] structure LogNum where
  lognum : ℝ
  sign : ℤ

/-- `LogNum(Real r)`. real.h:88-107 -/
noncomputable def ofReal (r : ℝ) : LogNum := if r = 0 then ⟨0, 0⟩ else if r < 0 then ⟨Real.log (-r), -1⟩ else ⟨Real.log r, 1⟩

/-- `LogNum::real()`. real.h:163-180 -/
noncomputable def real (a : LogNum) : ℝ := if a.sign = 0 then 0 else a.sign * Real.exp a.lognum

/-- `operator+=`. real.h:189-201 -/
noncomputable def add (a b : LogNum) : LogNum := ofReal (real a + real b)

/-- `operator*=(LogNum)`. real.h:219-225 -/
noncomputable def mul (a b : LogNum) : LogNum := ⟨a.lognum + b.lognum, a.sign * b.sign⟩

/-- `operator*=(Real)`. real.h:227-236 -/
noncomputable def mulReal (a : LogNum) (x : ℝ) : LogNum := if x = -1 then ⟨a.lognum, a.sign * -1⟩ else mul a (ofReal x)

/-- `operator/=(LogNum)`. real.h:238-247 -/
noncomputable def div (a b : LogNum) : LogNum := ⟨a.lognum - b.lognum, a.sign * b.sign⟩

/-- `operator-()`. real.h:252-254 -/
noncomputable def neg (a : LogNum) : LogNum := ⟨a.lognum, a.sign * -1⟩

/-- `operator==`. real.h:204-206 -/
def eq (a b : LogNum) : Prop := a.sign = b.sign ∧ a.lognum = b.lognum

/-- `operator<`. real.h:263-274 -/
def lt (a b : LogNum) : Prop := if a.sign ≠ b.sign then a.sign < b.sign else if 0 < a.sign then a.lognum < b.lognum else if a.sign = 0 then False else a.lognum > b.lognum

/-- `operator<=`. real.h:276-280 -/
def le (a b : LogNum) : Prop := lt a b ∨ eq a b

/-- `operator>=`. real.h:282-286 -/
def ge (a b : LogNum) : Prop := ¬lt a b

/-- `operator>`. real.h:288-292 -/
def gt (a b : LogNum) : Prop := ¬lt a b ∧ ¬eq a b

/-- `magnitudeLessThan`. real.h:306-312 -/
def magnitudeLessThan (a b : LogNum) : Prop := if a.sign = 0 then b.sign ≠ 0 else if b.sign = 0 then False else a.lognum < b.lognum

/-- `pow`. real.h:314-319 -/
noncomputable def pow (a : LogNum) (p : ℝ) : LogNum := ⟨a.lognum * p, a.sign⟩

/-- `sqrt(LogNum)`. real.h:330-336 -/
noncomputable def sqrt (a : LogNum) : Res LogNum := if a.sign < 0 then .throw else .ok (pow a 0.5)

/-- What the constructors with `DEBUG` demand of a `LogNum`. real.h:114-117 -/
def Valid (a : LogNum) : Prop := a.sign = -1 ∨ a.sign = 0 ∨ a.sign = 1

theorem real_zero {a : LogNum} (h : a.sign = 0) : real a = 0 := if_pos h

theorem real_pos {a : LogNum} (h : a.sign = 1) : real a = Real.exp a.lognum := by simp [real, h]

theorem real_neg {a : LogNum} (h : a.sign = -1) : real a = -Real.exp a.lognum := by simp [real, h]

theorem valid_ofReal (r : ℝ) : Valid (ofReal r) := by
  unfold ofReal Valid
  split
  · simp
  · split <;> simp

theorem real_ofReal (r : ℝ) : real (ofReal r) = r := by
  unfold ofReal
  split
  · next h => rw [real_zero rfl, h]
  · next h =>
    split
    · next h2 => rw [real_neg rfl, Real.exp_log (by linarith), neg_neg]
    · next h2 => rw [real_pos rfl, Real.exp_log (lt_of_le_of_ne (not_lt.1 h2) (Ne.symm h))]

theorem valid_mul {a b : LogNum} (ha : Valid a) (hb : Valid b) : Valid (mul a b) := by
  rcases ha with h | h | h <;> rcases hb with h' | h' | h' <;> simp [Valid, mul, h, h']

theorem real_mul (a b : LogNum) : real (mul a b) = real a * real b := by
  unfold real mul
  by_cases ha : a.sign = 0
  · simp [ha]
  · by_cases hb : b.sign = 0
    · simp [hb]
    · simp only [mul_eq_zero, ha, hb, or_self, if_false, Int.cast_mul, Real.exp_add]
      ring

theorem real_div {a b : LogNum} (hb : Valid b) (hb0 : b.sign ≠ 0) : real (div a b) = real a / real b := by
  unfold real div
  by_cases ha : a.sign = 0
  · simp [ha]
  · simp only [mul_eq_zero, ha, hb0, or_self, if_false, Int.cast_mul, Real.exp_sub]
    have := Real.exp_ne_zero b.lognum
    rcases hb with h | h | h
    · rw [h]; push_cast; field_simp
    · exact absurd h hb0
    · rw [h]; push_cast; field_simp

theorem real_negate (a : LogNum) : real (neg a) = -real a := by
  unfold real neg
  by_cases ha : a.sign = 0
  · simp [ha]
  · simp [ha]

/-- **C112** (values, in part). To make a `LogNum` of a number and to read it gives the number; sum, product, quotient, the negative and the product with a number have the value they should have, and are valid; for this the
divisor must not be zero. -/
theorem C112_arith_partial (r : ℝ) (a b : LogNum) (ha : Valid a) (hb : Valid b) :
    real (ofReal r) = r ∧ real (add a b) = real a + real b ∧ real (mul a b) = real a * real b ∧ real (mulReal a r) = real a * r ∧ real (neg a) = -real a ∧
    (real b ≠ 0 → real (div a b) = real a / real b) ∧ Valid (ofReal r) ∧ Valid (add a b) ∧ Valid (mul a b) ∧ Valid (mulReal a r) ∧ Valid (neg a) ∧ Valid (div a b) := by
  have hm : ∀ x, mulReal a x = mul a (ofReal x) ∨ (x = -1 ∧ mulReal a x = neg a) := by
    intro x
    unfold mulReal
    by_cases hx : x = -1
    · right; rw [if_pos hx]; exact ⟨hx, rfl⟩
    · left; rw [if_neg hx]
  have hn : Valid (neg a) := by rcases ha with h | h | h <;> simp [Valid, neg, h]
  refine ⟨real_ofReal r, real_ofReal _, real_mul a b, ?_, real_negate a, fun h => real_div hb fun h0 => h (real_zero h0), valid_ofReal r, valid_ofReal _, valid_mul ha hb, ?_, hn, ?_⟩
  · rcases hm r with h | ⟨rfl, h⟩
    · rw [h, real_mul, real_ofReal]
    · rw [h, real_negate]; ring
  · rcases hm r with h | ⟨-, h⟩
    · rw [h]; exact valid_mul ha (valid_ofReal r)
    · rw [h]; exact hn
  · rcases ha with h | h | h <;> rcases hb with h' | h' | h' <;> simp [Valid, div, h, h']

theorem lt_iff {a b : LogNum} (ha : Valid a) (hb : Valid b) : lt a b ↔ real a < real b := by
  have pa := Real.exp_pos a.lognum
  have pb := Real.exp_pos b.lognum
  unfold lt
  rcases ha with h | h | h <;> rcases hb with h' | h' | h'
  · rw [real_neg h, real_neg h', h, h']; simp
  · rw [real_neg h, real_zero h', h, h']; simpa using pa
  · rw [real_neg h, real_pos h', h, h']
    simp
    linarith
  · rw [real_zero h, real_neg h', h, h']; simpa using pb.le
  · rw [real_zero h, real_zero h', h, h']; simp
  · rw [real_zero h, real_pos h', h, h']; simpa using pb
  · rw [real_pos h, real_neg h', h, h']
    simp
    linarith
  · rw [real_pos h, real_zero h', h, h']; simpa using pa.le
  · rw [real_pos h, real_pos h', h, h']; simp

theorem eq_iff {a b : LogNum} (ha : Valid a) (hb : Valid b) (hz : a.sign = 0 → b.sign = 0 → a.lognum = b.lognum) : eq a b ↔ real a = real b := by
  have pa := Real.exp_pos a.lognum
  have pb := Real.exp_pos b.lognum
  unfold eq
  rcases ha with h | h | h <;> rcases hb with h' | h' | h'
  · rw [real_neg h, real_neg h', h, h']; simp
  · rw [real_neg h, real_zero h', h, h']; simp
  · rw [real_neg h, real_pos h', h, h']
    simp
    linarith
  · rw [real_zero h, real_neg h', h, h']; simp
  · rw [real_zero h, real_zero h', h, h']; simp [hz h h']
  · rw [real_zero h, real_pos h', h, h']; simp [pb.ne]
  · rw [real_pos h, real_neg h', h, h']
    simp
    linarith
  · rw [real_pos h, real_zero h', h, h']; simp
  · rw [real_pos h, real_pos h', h, h']; simp

/-- **C112** (order, in part). `<` and `>=` compare the values of all valid numbers; so do `==`, `<=` and `>` if the two are not both zero with different logarithms. The magnitudes are compared as absolute values. -/
theorem C112_order_partial (a b : LogNum) (ha : Valid a) (hb : Valid b) :
    (lt a b ↔ real a < real b) ∧ (ge a b ↔ real b ≤ real a) ∧ (magnitudeLessThan a b ↔ |real a| < |real b|) ∧
    ((real a = 0 → real b = 0 → a.lognum = b.lognum) → (eq a b ↔ real a = real b) ∧ (le a b ↔ real a ≤ real b) ∧ (gt a b ↔ real b < real a)) := by
  refine ⟨lt_iff ha hb, ?_, ?_, fun hz => ?_⟩
  · unfold ge
    rw [lt_iff ha hb, not_lt]
  · have pa := Real.exp_pos a.lognum
    have pb := Real.exp_pos b.lognum
    unfold magnitudeLessThan
    rcases ha with h | h | h <;> rcases hb with h' | h' | h' <;> simp [real, h, h', abs_of_pos, pa, pb, pa.le]
  · have he := eq_iff ha hb fun h h' => hz (real_zero h) (real_zero h')
    refine ⟨he, ?_, ?_⟩
    · unfold le
      rw [lt_iff ha hb, he, le_iff_lt_or_eq]
    · unfold gt
      rw [lt_iff ha hb, he, not_lt]
      exact ⟨fun ⟨h1, h2⟩ => lt_of_le_of_ne h1 (Ne.symm h2), fun h => ⟨h.le, h.ne'⟩⟩

/-- **C112** (powers, in part). Powers of numbers which are positive, and square roots of numbers which are not negative, have the value they should have; the square root of a negative number is an error. -/
theorem C112_pow_partial (a : LogNum) (ha : Valid a) (p : ℝ) :
    (0 < real a → real (pow a p) = real a ^ p) ∧ (0 ≤ real a → ∃ s, sqrt a = .ok s ∧ real s = Real.sqrt (real a)) ∧ (real a < 0 → sqrt a = .throw) := by
  have pa := Real.exp_pos a.lognum
  have hpow : a.sign = 1 → ∀ p, real (pow a p) = real a ^ p := by
    intro h p
    rw [real_pos h, real_pos (a := pow a p) h, ← Real.exp_mul]
    rfl
  rcases ha with h | h | h
  · have hr := real_neg h
    refine ⟨fun h0 => ?_, fun h0 => ?_, fun _ => ?_⟩
    · rw [hr] at h0; linarith
    · rw [hr] at h0; linarith
    · unfold sqrt; rw [h]; rfl
  · have hr := real_zero h
    refine ⟨fun h0 => ?_, fun h0 => ⟨pow a 0.5, ?_, ?_⟩, fun h0 => ?_⟩
    · rw [hr] at h0; exact absurd h0 (lt_irrefl _)
    · unfold sqrt; rw [h]; rfl
    · rw [hr, real_zero (a := pow a 0.5) h, Real.sqrt_zero]
    · rw [hr] at h0; exact absurd h0 (lt_irrefl _)
  · refine ⟨fun _ => hpow h p, fun h0 => ⟨pow a 0.5, ?_, ?_⟩, fun h0 => ?_⟩
    · unfold sqrt; rw [h]; rfl
    · rw [hpow h, Real.sqrt_eq_rpow]; norm_num
    · rw [real_pos h] at h0; linarith

/-- **C112** fails for `==`, `<=` and `>`: zero times two has the value of zero, but is not equal to zero, is greater than zero, and is not less than or equal to zero. -/
theorem C112_zero_counterexample : real (mul (ofReal 0) (ofReal 2)) = real (ofReal 0) ∧ ¬eq (mul (ofReal 0) (ofReal 2)) (ofReal 0) ∧ gt (mul (ofReal 0) (ofReal 2)) (ofReal 0) ∧
    ¬le (mul (ofReal 0) (ofReal 2)) (ofReal 0) := by
  have h0 : ofReal 0 = ⟨0, 0⟩ := by simp [ofReal]
  have h2 : ofReal 2 = ⟨Real.log 2, 1⟩ := by norm_num [ofReal]
  have hl : Real.log 2 ≠ 0 := (Real.log_pos (by norm_num)).ne'
  rw [h0, h2]
  refine ⟨by simp [real, mul], by simp [eq, mul, hl], by simp [gt, lt, eq, mul, hl], by simp [le, lt, eq, mul, hl]⟩

/-- **C112** fails for `pow`: minus two to the power two is minus four, and zero to the power zero is zero. -/
theorem C112_pow_counterexample : real (pow (ofReal (-2)) 2) = -4 ∧ real (pow (ofReal 0) 0) = 0 := by
  have h2 : ofReal (-2) = ⟨Real.log 2, -1⟩ := by norm_num [ofReal]
  have h0 : ofReal 0 = ⟨0, 0⟩ := by simp [ofReal]
  refine ⟨?_, by rw [h0]; simp [real, pow]⟩
  rw [h2, real_neg (a := pow ⟨Real.log 2, -1⟩ 2) rfl]
  show -Real.exp (Real.log 2 * 2) = -4
  rw [Real.exp_mul, Real.exp_log (by norm_num)]
  norm_num

/-- **C112** fails for division: one divided by zero is zero. -/
theorem C112_div_counterexample : real (div (ofReal 1) (ofReal 0)) = 0 := by
  simp [real, div, ofReal]

/-- Minus three times two is less than minus one. -/
example : lt (mul (ofReal (-3)) (ofReal 2)) (ofReal (-1)) := by
  rw [(C112_order_partial _ _ (valid_mul (valid_ofReal _) (valid_ofReal _)) (valid_ofReal _)).1, real_mul]
  simp only [real_ofReal]
  norm_num

/-- The square root of nine. -/
example : ∃ s, sqrt (ofReal 9) = .ok s ∧ real s = 3 := by
  obtain ⟨s, h1, h2⟩ := (C112_pow_partial (ofReal 9) (valid_ofReal _) 0).2.1 (by rw [real_ofReal]; norm_num)
  refine ⟨s, h1, ?_⟩
  rw [h2, real_ofReal, show (9 : ℝ) = 3 ^ 2 by norm_num, Real.sqrt_sq (by norm_num)]

end Verif.LogNum
