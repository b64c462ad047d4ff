import Verif.AutoMPO.TermsProps
import Mathlib.Algebra.Order.Field.Basic
import Mathlib.Algebra.Order.Field.Rat
import Mathlib.Tactic.Linarith
import Mathlib.Tactic.NormNum
import Mathlib.Tactic.Ring

/-!
# C109: comparing the terms of a Hamiltonian

Source: `/repo/itensor/mps/autompo.cc`, `HTerm::operator==` and `HTerm::operator<`. Numbers are from an ordered field: rounding is left out. A complex number is the pair of its parts, and absolute
values of complex numbers are compared by their squares. `eps` is the constant 1E-12.
-/

namespace Verif.AutoMPO

variable {F : Type*} [Field F] [LinearOrder F] [IsStrictOrderedRing F]

/-- The square of `std::abs` of a complex number. -/
def csq (z : F × F) : F := z.1 * z.1 + z.2 * z.2

/-- `equal(Cplx,Cplx,eps)`: `abs(x-y) <= scale*eps` with `scale` the larger of the absolute values. autompo.cc:52-58 -/
def equalC (eps : F) (x y : F × F) : Bool := decide (csq (x.1 - y.1, x.2 - y.2) ≤ max (csq x) (csq y) * (eps * eps))

/-- `less(Real,Real,eps)`. autompo.cc:42-49 -/
def lessR (eps x y : F) : Bool := decide (max |x| |y| * eps ≤ y - x)

/-- `less(Cplx,Cplx,eps)`; `equal` of the real parts is that of complex numbers. autompo.cc:60-68 -/
def lessC (eps : F) (x y : F × F) : Bool := if !equalC eps (x.1, 0) (y.1, 0) then lessR eps x.1 y.1 else lessR eps x.2 y.2

/-- `operator<` of `std::vector<SiteTerm>`: `std::lexicographical_compare`. -/
def lessVec : List SiteTerm → List SiteTerm → Bool
  | [], [] => false
  | [], _ :: _ => true
  | _ :: _, [] => false
  | a :: as, b :: bs => if a.less b then true else if b.less a then false else lessVec as bs

/-- The loop `for(n = 0; n <= ops.size(); ++n) if(ops[n] != o.ops.at(n)) return false`: the lists are what is left of the operators. `ops[n]` past the end is undefined behaviour, `at` past the
end an exception. autompo.cc:231-235 -/
def eqLoop : List SiteTerm → List SiteTerm → Res Bool
  | [], _ => .ub
  | _ :: _, [] => .throw
  | a :: as, b :: bs => if a ≠ b then .ok false else eqLoop as bs

/-- `HTerm::operator==`. autompo.cc:225-238 -/
def HTerm.eq (eps : F) (a b : HTerm (F × F)) : Res Bool :=
  if !equalC eps a.coef b.coef then .ok false
  else if a.ops.length ≠ b.ops.length then .ok false
  else eqLoop a.ops b.ops

/-- `HTerm::operator<`. autompo.cc:240-245 -/
def HTerm.less (eps : F) (a b : HTerm (F × F)) : Bool :=
  if !equalC eps a.coef b.coef then lessC eps a.coef b.coef else lessVec a.ops b.ops

/-! ## Equality -/

theorem eqLoop_spec : ∀ {a b : List SiteTerm}, a.length = b.length → eqLoop a b = if a = b then .ub else .ok false
  | [], [], _ => rfl
  | a :: as, b :: bs, h => by
    unfold eqLoop
    by_cases e : a = b
    · subst e
      rw [if_neg (by simp), eqLoop_spec (by simpa using h)]
      simp
    · rw [if_pos e, if_neg]
      exact fun h => e (List.cons.inj h).1

/-- **C109, different terms.** Two terms of which the operators are not the same, or the coefficients not within the tolerance, compare as different. -/
theorem C109_different_partial (eps : F) (a b : HTerm (F × F))
    (h : a.ops ≠ b.ops ∨ max (csq a.coef) (csq b.coef) * (eps * eps) < csq (a.coef.1 - b.coef.1, a.coef.2 - b.coef.2)) : a.eq eps b = .ok false := by
  unfold HTerm.eq
  split
  · rfl
  · rename_i hc
    simp only [Bool.not_eq_true, Bool.not_eq_false', equalC, decide_eq_true_eq] at hc
    rcases h with h | h
    · split
      · rfl
      · rename_i hl
        rw [eqLoop_spec (by simpa using hl), if_neg h]
    · exact absurd hc (not_le.2 h)

example : (⟨(1, 0), [⟨['S', 'z'], 1⟩]⟩ : HTerm (ℚ × ℚ)).eq (1 / 10 ^ 12) ⟨(1, 0), [⟨['S', 'z'], 2⟩]⟩ = .ok false := C109_different_partial _ _ _ (.inl (by decide))

/-- **C109.** No two terms compare as equal: for terms with the same operators and coefficients the loop of `operator==` goes on past the end of both vectors. -/
theorem C109_equal_counterexample (eps : F) : (∀ a b : HTerm (F × F), a.eq eps b ≠ .ok true) ∧ ∀ a : HTerm (F × F), a.eq eps a = .ub := by
  have key : ∀ a b : HTerm (F × F), a.eq eps b = .ok false ∨ a.eq eps b = .ub := by
    intro a b
    unfold HTerm.eq
    split
    · exact .inl rfl
    · split
      · exact .inl rfl
      · rename_i hl
        rw [eqLoop_spec (by simpa using hl)]
        split
        · exact .inr rfl
        · exact .inl rfl
  refine ⟨fun a b h => ?_, fun a => ?_⟩
  · rcases key a b with h' | h' <;> rw [h'] at h <;> simp at h
  · unfold HTerm.eq
    have h : equalC eps a.coef a.coef = true := by
      unfold equalC
      rw [decide_eq_true_eq, sub_self, sub_self, max_self]
      have : csq ((0 : F), (0 : F)) = 0 := by simp [csq]
      rw [this]
      exact mul_nonneg (add_nonneg (mul_self_nonneg _) (mul_self_nonneg _)) (mul_self_nonneg _)
    rw [h]
    simp [eqLoop_spec rfl]

/-! ## Order -/

theorem lessVec_irrefl : ∀ a : List SiteTerm, lessVec a a = false
  | [] => rfl
  | a :: as => by simp [lessVec, SiteTerm.less_irrefl, lessVec_irrefl as]

theorem lessVec_cons (a b : SiteTerm) (as bs : List SiteTerm) : lessVec (a :: as) (b :: bs) = true ↔ a.less b = true ∨ a = b ∧ lessVec as bs = true := by
  show (if a.less b then true else if b.less a then false else lessVec as bs) = true ↔ _
  by_cases h1 : a.less b = true
  · simp [h1]
  · rw [if_neg h1]
    by_cases h2 : b.less a = true
    · rw [if_pos h2]
      simp only [Bool.false_eq_true, false_iff, not_or, not_and]
      refine ⟨h1, fun e => ?_⟩
      rw [e, SiteTerm.less_irrefl] at h2
      simp at h2
    · rw [if_neg h2]
      have e := SiteTerm.less_total (by simpa using h1) (by simpa using h2)
      simp [e, SiteTerm.less_irrefl]

theorem lessVec_trans : ∀ {a b c : List SiteTerm}, lessVec a b = true → lessVec b c = true → lessVec a c = true
  | [], [], _, h, _ => by simp [lessVec] at h
  | [], _ :: _, [], _, h => by simp [lessVec] at h
  | [], _ :: _, _ :: _, _, _ => rfl
  | _ :: _, [], _, h, _ => by simp [lessVec] at h
  | _ :: _, _ :: _, [], _, h => by simp [lessVec] at h
  | a :: as, b :: bs, c :: cs, h1, h2 => by
    rw [lessVec_cons] at h1 h2 ⊢
    rcases h1 with h1 | ⟨rfl, h1⟩
    · rcases h2 with h2 | ⟨rfl, h2⟩
      · exact .inl (SiteTerm.less_trans h1 h2)
      · exact .inl h1
    · rcases h2 with h2 | ⟨rfl, h2⟩
      · exact .inl h2
      · exact .inr ⟨rfl, lessVec_trans h1 h2⟩

theorem lessVec_total : ∀ {a b : List SiteTerm}, lessVec a b = true ∨ a = b ∨ lessVec b a = true
  | [], [] => .inr (.inl rfl)
  | [], _ :: _ => .inl rfl
  | _ :: _, [] => .inr (.inr rfl)
  | a :: as, b :: bs => by
    rw [lessVec_cons, lessVec_cons]
    by_cases h1 : a.less b = true
    · exact .inl (.inl h1)
    · by_cases h2 : b.less a = true
      · exact .inr (.inr (.inl h2))
      · have e := SiteTerm.less_total (by simpa using h1) (by simpa using h2)
        subst e
        rcases lessVec_total (a := as) (b := bs) with h | rfl | h
        · exact .inl (.inr ⟨rfl, h⟩)
        · exact .inr (.inl rfl)
        · exact .inr (.inr (.inr ⟨rfl, h⟩))

/-- Numbers which are the same or further apart than the tolerance. -/
def RealApart (eps x y : F) : Prop := x = y ∨ max |x| |y| * eps < |x - y|

/-- The coefficients of two terms: both parts are the same or apart, and the complex numbers are the same or apart. -/
structure CoefApart (eps : F) (x y : F × F) : Prop where
  re : RealApart eps x.1 y.1
  im : RealApart eps x.2 y.2
  both : x = y ∨ max (csq x) (csq y) * (eps * eps) < csq (x.1 - y.1, x.2 - y.2)

theorem lessR_apart {eps x y : F} (h0 : 0 ≤ eps) (h : max |x| |y| * eps < |x - y|) : lessR eps x y = true ↔ x < y := by
  unfold lessR
  rw [decide_eq_true_eq]
  have hs : 0 ≤ max |x| |y| * eps := mul_nonneg (le_max_of_le_left (abs_nonneg x)) h0
  constructor
  · intro h1
    rcases lt_or_eq_of_le (show x ≤ y by linarith) with h2 | rfl
    · exact h2
    · simp only [sub_self, abs_zero] at h
      exact absurd h (not_lt.2 hs)
  · intro h1
    rw [abs_sub_comm, abs_of_pos (sub_pos.2 h1)] at h
    exact h.le

/-- The order of complex numbers which are apart: first the real, then the imaginary part. -/
theorem lessC_apart {eps : F} (h0 : 0 ≤ eps) {x y : F × F} (h : CoefApart eps x y) (hne : x ≠ y) : lessC eps x y = true ↔ x.1 < y.1 ∨ x.1 = y.1 ∧ x.2 < y.2 := by
  unfold lessC
  have hsq : max (csq (x.1, 0)) (csq (y.1, 0)) = max |x.1| |y.1| * max |x.1| |y.1| := by
    have e : ∀ z : F, csq (z, 0) = |z| * |z| := fun z => by rw [csq, abs_mul_abs_self]; ring
    rw [e, e]
    rcases le_total |x.1| |y.1| with h | h
    · rw [max_eq_right h, max_eq_right (mul_self_le_mul_self (abs_nonneg _) h)]
    · rw [max_eq_left h, max_eq_left (mul_self_le_mul_self (abs_nonneg _) h)]
  rcases h.re with hr | hr
  · have he : equalC eps (x.1, 0) (y.1, 0) = true := by
      unfold equalC
      rw [decide_eq_true_eq, hsq, hr, sub_self, sub_self]
      have : csq ((0 : F), (0 : F)) = 0 := by simp [csq]
      rw [this]
      exact mul_nonneg (mul_self_nonneg _) (mul_self_nonneg _)
    have him : max |x.2| |y.2| * eps < |x.2 - y.2| := h.im.resolve_left fun e => hne (Prod.ext hr e)
    rw [he]
    simp only [Bool.not_true, Bool.false_eq_true, if_false]
    rw [lessR_apart h0 him]
    simp [hr]
  · have hs : 0 ≤ max |x.1| |y.1| * eps := mul_nonneg (le_max_of_le_left (abs_nonneg _)) h0
    have he : equalC eps (x.1, 0) (y.1, 0) = false := by
      unfold equalC
      rw [decide_eq_false_iff_not, hsq, not_le]
      have e : csq (x.1 - y.1, (0 : F) - 0) = |x.1 - y.1| * |x.1 - y.1| := by rw [csq, abs_mul_abs_self]; ring
      show _ < csq (x.1 - y.1, (0 : F) - 0)
      rw [e]
      have := mul_self_lt_mul_self hs hr
      calc _ = max |x.1| |y.1| * eps * (max |x.1| |y.1| * eps) := by ring
        _ < _ := this
    rw [he]
    simp only [Bool.not_false, if_true]
    rw [lessR_apart h0 hr]
    have hx : x.1 ≠ y.1 := by
      intro e
      have h0' : |x.1 - y.1| = 0 := by rw [e, sub_self, abs_zero]
      rw [h0'] at hr
      exact absurd hr (not_lt.2 hs)
    simp [hx]

/-- What `operator<` says of terms with coefficients which are apart. -/
theorem less_iff {eps : F} (h0 : 0 ≤ eps) {a b : HTerm (F × F)} (h : CoefApart eps a.coef b.coef) :
    a.less eps b = true ↔ a.coef.1 < b.coef.1 ∨ a.coef.1 = b.coef.1 ∧ (a.coef.2 < b.coef.2 ∨ a.coef.2 = b.coef.2 ∧ lessVec a.ops b.ops = true) := by
  unfold HTerm.less
  by_cases hc : a.coef = b.coef
  · have he : equalC eps a.coef b.coef = true := by
      unfold equalC
      rw [decide_eq_true_eq, hc, sub_self, sub_self, max_self]
      have : csq ((0 : F), (0 : F)) = 0 := by simp [csq]
      rw [this]
      exact mul_nonneg (add_nonneg (mul_self_nonneg _) (mul_self_nonneg _)) (mul_self_nonneg _)
    rw [he]
    simp [hc]
  · have he : equalC eps a.coef b.coef = false := by
      unfold equalC
      rw [decide_eq_false_iff_not, not_le]
      exact h.both.resolve_left hc
    rw [he]
    simp only [Bool.not_false, if_true]
    rw [lessC_apart h0 h hc]
    constructor
    · rintro (h | ⟨h, h'⟩)
      · exact .inl h
      · exact .inr ⟨h, .inl h'⟩
    · rintro (h | ⟨h, h' | ⟨h', _⟩⟩)
      · exact .inl h
      · exact .inr ⟨h, h'⟩
      · exact absurd (Prod.ext h h') hc

/-- **C109, order.** Among terms with coefficients which are the same or further apart than the tolerance, `operator<` is a strict total order: no term is less than itself, it is transitive, and of two
different terms one is less. Partial: without rounding, and not for coefficients which are close but not the same. -/
theorem C109_order_partial {eps : F} (h0 : 0 ≤ eps) {S : Set (HTerm (F × F))} (hS : ∀ a ∈ S, ∀ b ∈ S, CoefApart eps a.coef b.coef) :
    (∀ a ∈ S, a.less eps a = false) ∧ (∀ a ∈ S, ∀ b ∈ S, ∀ c ∈ S, a.less eps b = true → b.less eps c = true → a.less eps c = true) ∧
      ∀ a ∈ S, ∀ b ∈ S, a.less eps b = true ∨ a = b ∨ b.less eps a = true := by
  refine ⟨fun a ha => ?_, fun a ha b hb c hc h1 h2 => ?_, fun a ha b hb => ?_⟩
  · rw [← Bool.not_eq_true, less_iff h0 (hS a ha a ha)]
    simp [lessVec_irrefl]
  · rw [less_iff h0 (hS a ha b hb)] at h1
    rw [less_iff h0 (hS b hb c hc)] at h2
    rw [less_iff h0 (hS a ha c hc)]
    rcases h1 with h1 | ⟨e1, h1⟩ <;> rcases h2 with h2 | ⟨e2, h2⟩
    · exact .inl (h1.trans h2)
    · exact .inl (e2 ▸ h1)
    · exact .inl (e1 ▸ h2)
    · refine .inr ⟨e1.trans e2, ?_⟩
      rcases h1 with h1 | ⟨e1, h1⟩ <;> rcases h2 with h2 | ⟨e2, h2⟩
      · exact .inl (h1.trans h2)
      · exact .inl (e2 ▸ h1)
      · exact .inl (e1 ▸ h2)
      · exact .inr ⟨e1.trans e2, lessVec_trans h1 h2⟩
  · rw [less_iff h0 (hS a ha b hb), less_iff h0 (hS b hb a ha)]
    obtain ⟨⟨x, y⟩, ops⟩ := a
    obtain ⟨⟨x', y'⟩, ops'⟩ := b
    rcases lt_trichotomy x x' with h | rfl | h
    · exact .inl (.inl h)
    · rcases lt_trichotomy y y' with h | rfl | h
      · exact .inl (.inr ⟨rfl, .inl h⟩)
      · rcases lessVec_total (a := ops) (b := ops') with h | rfl | h
        · exact .inl (.inr ⟨rfl, .inr ⟨rfl, h⟩⟩)
        · exact .inr (.inl rfl)
        · exact .inr (.inr (.inr ⟨rfl, .inr ⟨rfl, h⟩⟩))
      · exact .inr (.inr (.inr ⟨rfl, .inl h⟩))
    · exact .inr (.inr (.inl h))

/-- The tolerance. -/
def tol : ℚ := 1 / 10 ^ 12

/-- Terms with the coefficients 1, -1/2 and `i`. -/
def someTerms : Set (HTerm (ℚ × ℚ)) := {a | a.coef = (1, 0) ∨ a.coef = (-1 / 2, 0) ∨ a.coef = (0, 1)}

example : ∀ a ∈ someTerms, ∀ b ∈ someTerms, a.less tol b = true ∨ a = b ∨ b.less tol a = true := by
  refine (C109_order_partial (by norm_num [tol]) ?_).2.2
  rintro a (h | h | h) b (h' | h' | h') <;> rw [h, h'] <;> constructor <;> (try unfold RealApart) <;> decide +kernel

/-- **C109.** Three terms with coefficients 1, 1+8E-13 and 1+16E-13: each is less than the next. `operator<` is not an order, and sorting with it is undefined behaviour. -/
theorem C109_cycle_counterexample : ∃ a b c : HTerm (ℚ × ℚ), a.less tol b = true ∧ b.less tol c = true ∧ c.less tol a = true :=
  ⟨⟨(1, 0), [⟨['S', 'z'], 3⟩]⟩, ⟨(1 + 16 / 10 ^ 13, 0), [⟨['S', 'z'], 1⟩]⟩, ⟨(1 + 8 / 10 ^ 13, 0), [⟨['S', 'z'], 2⟩]⟩, by decide +kernel⟩

end Verif.AutoMPO
