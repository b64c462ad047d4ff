import Verif.MPS.Integrators
import Mathlib.Analysis.Normed.Algebra.Exponential
import Mathlib.Analysis.SpecialFunctions.Exponential
import Mathlib.Analysis.Normed.Operator.NormedSpace
import Mathlib.Tactic.NoncommRing

/-! # C87: Runge-Kutta steps follow the exponential of the derivative -/

noncomputable section

namespace Verif.Integrators

open Finset

section vectors

variable {E : Type*} [AddCommGroup E] [Module ℝ E]

/-- The vector holds the tensors `u` at places 1 to `N`; its other elements are as in `v`. -/
structure Holds (v : Vec E) {N : Nat} (u : Fin N → E) (w : Vec E) : Prop where
  len : w.length = v.length
  other : ∀ i : Nat, i = 0 ∨ N < i → w[i]? = v[i]?
  elem : ∀ i : Fin N, w[(i : Nat) + 1]? = some (some (u i))

/-- A derivative which depends on the tensors only, through the function `A`. -/
def Deriv (D : Vec E → Res (Vec E)) (v : Vec E) {N : Nat} (A : (Fin N → E) → (Fin N → E)) : Prop :=
  ∀ w u, Holds v u w → ∃ k, D w = .ok k ∧ ∀ i : Fin N, k[(i : Nat) + 1]? = some (some (A u i))

/-- The places after `N` are empty. -/
structure Start (v : Vec E) (N : Nat) : Prop where
  pos : 1 ≤ N
  len : N < v.length
  tail : ∀ i : Nat, N < i → i < v.length → v[i]? = some none

theorem Holds.trans {v w w' : Vec E} {N : Nat} {u u' : Fin N → E} (h : Holds v u w) (h' : Holds w u' w') : Holds v u' w' :=
  ⟨h'.len.trans h.len, fun i hi => (h'.other i hi).trans (h.other i hi), h'.elem⟩

theorem atV_get {v : Vec E} {i : Nat} {a : Option E} (h : v[i]? = some a) : atV v i = .ok a := by
  unfold atV
  rw [if_neg (by omega)]
  simp [h]

theorem lastN_spec {v w : Vec E} {N : Nat} {u : Fin N → E} (hs : Start v N) (h : Holds v u w) : ∀ (n j : Nat), N + j < v.length → j ≤ n →
    lastN w n ((N + j : Nat) : Int) = .ok N := by
  intro n
  have hN := hs.pos
  induction n with
  | zero => intro j _ hj; obtain rfl : j = 0 := by omega
            rfl
  | succ n ih =>
    intro j hj hn
    rw [lastN]
    rcases j with _ | j
    · have := h.elem ⟨N - 1, by omega⟩
      rw [show N - 1 + 1 = N by omega] at this
      rw [Nat.add_zero, atV_get this]
      simp
    · rw [atV_get (a := none) (by rw [h.other _ (Or.inr (by omega))]; exact hs.tail _ (by omega) hj)]
      simp only [Res.bind_ok, Option.isNone_none, true_and]
      rw [if_pos (by push_cast; omega), show ((N + (j + 1) : Nat) : Int) - 1 = ((N + j : Nat) : Int) by push_cast; ring]
      exact ih j (by omega) (by omega)

theorem sizeN_spec {v w : Vec E} {N : Nat} {u : Fin N → E} (hs : Start v N) (h : Holds v u w) : sizeN w = .ok N := by
  unfold sizeN
  have hl := hs.len
  have := lastN_spec hs h w.length (v.length - 1 - N) (by omega) (by rw [h.len]; omega)
  rw [show ((N + (v.length - 1 - N) : Nat) : Int) = (w.length : Int) - 1 by rw [h.len]; omega] at this
  rw [this]
  have hN := hs.pos
  simp only [Res.bind_ok]
  rw [if_neg (by omega)]
  simp

theorem addLoop_spec {v : Vec E} {N : Nat} {u y : Fin N → E} {f : Int → Res (Option E)} (hl : N < v.length)
    (hf : ∀ i : Fin N, f ((i : Nat) + 1 : Nat) = .ok (some (y i))) : ∀ (n j : Nat) (w : Vec E), j + n = N →
    Holds v (fun i => if (i : Nat) < j then u i + y i else u i) w → ∃ w', addLoop f n ((j : Int) + 1) w = .ok w' ∧ Holds v (u + y) w' := by
  intro n
  induction n with
  | zero =>
    intro j w hj h
    refine ⟨w, rfl, h.len, h.other, fun i => ?_⟩
    rw [h.elem i, if_pos (by omega)]
    rfl
  | succ n ih =>
    intro j w hj h
    have hjN : j < N := by omega
    have e1 : f ((j : Int) + 1) = .ok (some (y ⟨j, hjN⟩)) := hf ⟨j, hjN⟩
    have e2 : atV w ((j : Int) + 1) = .ok (some (u ⟨j, hjN⟩)) := by
      have := h.elem ⟨j, hjN⟩
      rw [if_neg (by simp)] at this
      exact atV_get this
    rw [addLoop, e1, Res.bind_ok, e2, Res.bind_ok, addT, Res.bind_ok]
    have := ih (j + 1) (w.set ((j : Int) + 1).toNat (some (u ⟨j, hjN⟩ + y ⟨j, hjN⟩))) (by omega) (by
      have hjt : ((j : Int) + 1).toNat = j + 1 := by omega
      rw [hjt]
      refine ⟨by rw [List.length_set]; exact h.len, fun i hi => ?_, fun i => ?_⟩
      · rw [List.getElem?_set_ne (by omega)]; exact h.other i hi
      · by_cases hij : (i : Nat) = j
        · have : i = ⟨j, hjN⟩ := Fin.ext hij
          subst this
          rw [List.getElem?_set_self (by rw [h.len]; omega), if_pos (by simp)]
        · rw [List.getElem?_set_ne (by omega), h.elem i]
          by_cases hlt : (i : Nat) < j
          · rw [if_pos hlt, if_pos (by omega)]
          · rw [if_neg hlt, if_neg (by omega)])
    push_cast at this
    exact this

theorem scaled_spec {N : Nat} {k : Vec E} {x : Fin N → E} (h : ∀ i : Fin N, k[(i : Nat) + 1]? = some (some (x i))) (c : ℝ) (i : Fin N) :
    scaled c k ((i : Nat) + 1 : Nat) = .ok (some ((c • x) i)) := by
  unfold scaled
  rw [atV_get (h i)]
  rfl

theorem weighted_spec {N : Nat} {k₁ k₂ k₃ k₄ : Vec E} {x₁ x₂ x₃ x₄ : Fin N → E} (h₁ : ∀ i : Fin N, k₁[(i : Nat) + 1]? = some (some (x₁ i)))
    (h₂ : ∀ i : Fin N, k₂[(i : Nat) + 1]? = some (some (x₂ i))) (h₃ : ∀ i : Fin N, k₃[(i : Nat) + 1]? = some (some (x₃ i)))
    (h₄ : ∀ i : Fin N, k₄[(i : Nat) + 1]? = some (some (x₄ i))) (t : ℝ) (i : Fin N) :
    weighted t k₁ k₂ k₃ k₄ ((i : Nat) + 1 : Nat) = .ok (some (((t / 6) • (x₁ + (2 : ℝ) • x₂ + (2 : ℝ) • x₃ + x₄)) i)) := by
  unfold weighted
  rw [atV_get (h₁ i), Res.bind_ok, scaled_spec h₂, Res.bind_ok, addT, Res.bind_ok, scaled_spec h₃, Res.bind_ok, addT, Res.bind_ok, atV_get (h₄ i), Res.bind_ok, addT,
    Res.bind_ok, smulT]
  congr 3
  simp only [Pi.add_apply, Pi.smul_apply]
  congr 1
  abel

/-- What a step of the Runge-Kutta method is made to compute. -/
def rk4 {V : Type*} [AddCommGroup V] [Module ℝ V] (A : V → V) (t : ℝ) (u : V) : V :=
  u + (t / 6) • (A u + (2 : ℝ) • A (u + (t / 2) • A u) + (2 : ℝ) • A (u + (t / 2) • A (u + (t / 2) • A u)) +
    A (u + t • A (u + (t / 2) • A (u + (t / 2) • A u))))

def mid {V : Type*} [AddCommGroup V] [Module ℝ V] (A : V → V) (t : ℝ) (u : V) : V := u + t • A (u + (t / 2) • A u)

theorem rk_spec {v w : Vec E} {N : Nat} {u : Fin N → E} (hs : Start v N) (h : Holds v u w) {D : Vec E → Res (Vec E)} {A : (Fin N → E) → Fin N → E}
    (hD : Deriv D v A) (t : ℝ) : ∃ w', rungeKutta4 D t w = .ok w' ∧ Holds v (rk4 A t u) w' := by
  have hl := hs.len
  have add : ∀ {f : Int → Res (Option E)} {y : Fin N → E}, (∀ i : Fin N, f ((i : Nat) + 1 : Nat) = .ok (some (y i))) → ∃ w', addLoop f N 1 w = .ok w' ∧ Holds v (u + y) w' := by
    intro f y hf
    exact addLoop_spec (j := 0) hl hf N w (by omega) (by simpa using h)
  unfold rungeKutta4
  rw [sizeN_spec hs h, Res.bind_ok]
  obtain ⟨k₁, e1, x1⟩ := hD w u h
  obtain ⟨d₁, f1, g1⟩ := add (scaled_spec x1 (t / 2))
  obtain ⟨k₂, e2, x2⟩ := hD d₁ _ g1
  obtain ⟨d₂, f2, g2⟩ := add (scaled_spec x2 (t / 2))
  obtain ⟨k₃, e3, x3⟩ := hD d₂ _ g2
  obtain ⟨d₃, f3, g3⟩ := add (scaled_spec x3 t)
  obtain ⟨k₄, e4, x4⟩ := hD d₃ _ g3
  obtain ⟨d₄, f4, g4⟩ := add (weighted_spec x1 x2 x3 x4 t)
  rw [e1, Res.bind_ok, f1, Res.bind_ok, e2, Res.bind_ok, f2, Res.bind_ok, e3, Res.bind_ok, f3, Res.bind_ok, e4, Res.bind_ok, f4]
  exact ⟨d₄, rfl, g4⟩

theorem mid_spec {v w : Vec E} {N : Nat} {u : Fin N → E} (hs : Start v N) (h : Holds v u w) {D : Vec E → Res (Vec E)} {A : (Fin N → E) → Fin N → E}
    (hD : Deriv D v A) (t : ℝ) : ∃ w', midpointMethod D t w = .ok w' ∧ Holds v (mid A t u) w' := by
  have hl := hs.len
  have add : ∀ {f : Int → Res (Option E)} {y : Fin N → E}, (∀ i : Fin N, f ((i : Nat) + 1 : Nat) = .ok (some (y i))) → ∃ w', addLoop f N 1 w = .ok w' ∧ Holds v (u + y) w' := by
    intro f y hf
    exact addLoop_spec (j := 0) hl hf N w (by omega) (by simpa using h)
  unfold midpointMethod
  rw [sizeN_spec hs h, Res.bind_ok]
  obtain ⟨k₁, e1, x1⟩ := hD w u h
  obtain ⟨d₁, f1, g1⟩ := add (scaled_spec x1 (t / 2))
  obtain ⟨k₂, e2, x2⟩ := hD d₁ _ g1
  obtain ⟨d₂, f2, g2⟩ := add (scaled_spec x2 t)
  rw [e1, Res.bind_ok, f1, Res.bind_ok, e2, Res.bind_ok, f2]
  exact ⟨d₂, rfl, g2⟩

theorem steps_spec {v : Vec E} {N : Nat} {f : Vec E → Res (Vec E)} {g : (Fin N → E) → Fin N → E}
    (hf : ∀ w u, Holds v u w → ∃ w', f w = .ok w' ∧ Holds v (g u) w') : ∀ (n : Nat) (w : Vec E) (u : Fin N → E), Holds v u w →
    ∃ w', steps f n w = .ok w' ∧ Holds v (g^[n] u) w' := by
  intro n
  induction n with
  | zero => intro w u h; exact ⟨w, rfl, h⟩
  | succ n ih =>
    intro w u h
    obtain ⟨w', e, h'⟩ := hf w u h
    obtain ⟨w2, e2, h2⟩ := ih w' _ h'
    exact ⟨w2, by rw [steps, e, Res.bind_ok, e2], h2⟩

end vectors

/-! ## The exponential -/

section exponential

variable {𝔸 : Type*} [NormedRing 𝔸] [NormOneClass 𝔸] [NormedAlgebra ℝ 𝔸] [CompleteSpace 𝔸]

/-- The Taylor polynomial. -/
def taylor (n : Nat) (X : 𝔸) : 𝔸 := ∑ k ∈ range n, ((k.factorial : ℝ)⁻¹) • X ^ k

theorem exp_sub_taylor (n : Nat) (X : 𝔸) : ‖NormedSpace.exp X - taylor n X‖ ≤ ‖X‖ ^ n / n.factorial * Real.exp ‖X‖ := by
  have hs := NormedSpace.expSeries_summable' (𝕂 := ℝ) X
  have he : NormedSpace.exp X = ∑' k : Nat, ((k.factorial : ℝ)⁻¹) • X ^ k := by rw [NormedSpace.exp_eq_tsum ℝ]
  have ht : NormedSpace.exp X - taylor n X = ∑' k : Nat, (((k + n).factorial : ℝ)⁻¹) • X ^ (k + n) := by
    rw [he, ← hs.sum_add_tsum_nat_add n, taylor, add_sub_cancel_left]
  have hr : HasSum (fun k : Nat => ‖X‖ ^ n / n.factorial * ((k.factorial : ℝ)⁻¹ * ‖X‖ ^ k)) (‖X‖ ^ n / n.factorial * Real.exp ‖X‖) := by
    refine HasSum.mul_left _ ?_
    have := NormedSpace.exp_series_hasSum_exp' (𝕂 := ℝ) ‖X‖
    rw [← Real.exp_eq_exp_ℝ] at this
    simpa using this
  rw [ht]
  refine tsum_of_norm_bounded hr fun k => ?_
  rw [norm_smul, norm_inv, Real.norm_natCast]
  have h1 : ‖X ^ (k + n)‖ ≤ ‖X‖ ^ (k + n) := norm_pow_le X _
  have h2 : (k.factorial * n.factorial : ℝ) ≤ ((k + n).factorial : ℝ) := by
    exact_mod_cast Nat.le_of_dvd (Nat.factorial_pos _) (Nat.factorial_mul_factorial_dvd_factorial_add k n)
  have h3 : (0 : ℝ) < k.factorial * n.factorial := by positivity
  calc ((k + n).factorial : ℝ)⁻¹ * ‖X ^ (k + n)‖ ≤ (k.factorial * n.factorial : ℝ)⁻¹ * ‖X‖ ^ (k + n) := by
        refine mul_le_mul ?_ h1 (norm_nonneg _) (by positivity)
        exact inv_anti₀ h3 h2
    _ = _ := by rw [mul_inv, pow_add]; ring

theorem taylor_le (n : Nat) (X : 𝔸) : ‖taylor n X‖ ≤ Real.exp ‖X‖ := by
  unfold taylor
  refine (norm_sum_le _ _).trans ?_
  have h1 : ∑ k ∈ range n, ‖((k.factorial : ℝ)⁻¹) • X ^ k‖ ≤ ∑ k ∈ range n, ‖X‖ ^ k / k.factorial := by
    refine sum_le_sum fun k _ => ?_
    rw [norm_smul, norm_inv, Real.norm_natCast, div_eq_inv_mul]
    exact mul_le_mul_of_nonneg_left (norm_pow_le X k) (by positivity)
  exact h1.trans (Real.sum_le_exp_of_nonneg (norm_nonneg _) n)

theorem exp_le (X : 𝔸) : ‖NormedSpace.exp X‖ ≤ Real.exp ‖X‖ := by
  have := exp_sub_taylor 0 X
  simpa [taylor] using this

/-- The error after `m` steps. -/
theorem pow_taylor (n : Nat) (X : 𝔸) : ∀ m : Nat, ‖NormedSpace.exp X ^ m - taylor n X ^ m‖ ≤ m * (‖X‖ ^ n / n.factorial * Real.exp (m * ‖X‖)) := by
  intro m
  induction m with
  | zero => simp
  | succ m ih =>
    set F := NormedSpace.exp X
    set P := taylor n X
    have e : F ^ (m + 1) - P ^ (m + 1) = F * (F ^ m - P ^ m) + (F - P) * P ^ m := by rw [pow_succ', pow_succ']; noncomm_ring
    have h1 : ‖F * (F ^ m - P ^ m)‖ ≤ Real.exp ‖X‖ * (m * (‖X‖ ^ n / n.factorial * Real.exp (m * ‖X‖))) :=
      (norm_mul_le _ _).trans (mul_le_mul (exp_le X) ih (norm_nonneg _) (Real.exp_pos _).le)
    have h2 : ‖(F - P) * P ^ m‖ ≤ ‖X‖ ^ n / n.factorial * Real.exp ‖X‖ * Real.exp ‖X‖ ^ m :=
      (norm_mul_le _ _).trans (mul_le_mul (exp_sub_taylor n X) ((norm_pow_le P m).trans (pow_le_pow_left₀ (norm_nonneg _) (taylor_le n X) m)) (norm_nonneg _) (by positivity))
    rw [e]
    refine (norm_add_le _ _).trans ((add_le_add h1 h2).trans (le_of_eq ?_))
    rw [← Real.exp_nat_mul]
    push_cast
    rw [add_mul (m : ℝ) 1 (‖X‖), one_mul, Real.exp_add]
    ring

end exponential

section linear

variable {V : Type*} [NormedAddCommGroup V] [NormedSpace ℝ V]

theorem rk4_linear (A : V →L[ℝ] V) (t : ℝ) (u : V) : rk4 A t u = taylor 5 (t • A) u := by
  simp only [rk4, taylor, sum_range_succ, range_zero, sum_empty, add_apply, smul_apply, smul_pow, pow_succ, pow_zero, one_mul,
    mul_apply_eq_comp, map_add, map_smul, one_apply_eq_self, zero_add, Nat.factorial]
  module

theorem mid_linear (A : V →L[ℝ] V) (t : ℝ) (u : V) : mid A t u = taylor 3 (t • A) u := by
  simp only [mid, taylor, sum_range_succ, range_zero, sum_empty, add_apply, smul_apply, smul_pow, pow_succ, pow_zero, one_mul,
    mul_apply_eq_comp, map_add, map_smul, one_apply_eq_self, zero_add, Nat.factorial]
  module

theorem iterate_apply (P : V →L[ℝ] V) : ∀ (n : Nat) (u : V), (fun u => P u)^[n] u = (P ^ n) u := by
  intro n
  induction n with
  | zero => intro u; rfl
  | succ n ih => intro u; rw [Function.iterate_succ_apply, ih, pow_succ]; rfl

end linear

end Verif.Integrators
