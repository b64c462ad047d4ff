import Verif.Solvers.ArnoldiProps
import Mathlib.LinearAlgebra.Matrix.Charpoly.Coeff
import Mathlib.LinearAlgebra.Matrix.ToLinearEquiv
import Mathlib.FieldTheory.IsAlgClosed.Basic
import Mathlib.Analysis.Complex.Polynomial.Basic
import Mathlib.Analysis.Normed.Module.FiniteDimension

/-!
# There is a function which does what `eigen` is documented to do
-/

noncomputable section

namespace Verif.Arnoldi

open scoped BigOperators
open Finset (range)

theorem root_vec {n : Nat} (M : Matrix (Fin n) (Fin n) ℂ) {mu : ℂ} (h : M.charpoly.IsRoot mu) : ∃ c : Fin n → ℂ, c ≠ 0 ∧ M.mulVec c = mu • c := by
  rw [Polynomial.IsRoot.def, Matrix.eval_charpoly] at h
  obtain ⟨c, hc, e⟩ := Matrix.exists_mulVec_eq_zero_iff.2 h
  refine ⟨c, hc, ?_⟩
  rw [Matrix.sub_mulVec, sub_eq_zero] at e
  rw [← e]
  ext i
  simp [Matrix.scalar, Matrix.mulVec_diagonal]

theorem vec_root {n : Nat} (M : Matrix (Fin n) (Fin n) ℂ) {mu : ℂ} {c : Fin n → ℂ} (hc : c ≠ 0) (e : M.mulVec c = mu • c) : M.charpoly.IsRoot mu := by
  rw [Polynomial.IsRoot.def, Matrix.eval_charpoly]
  refine Matrix.exists_mulVec_eq_zero_iff.1 ⟨c, hc, ?_⟩
  rw [Matrix.sub_mulVec, sub_eq_zero, e]
  ext i
  simp [Matrix.scalar, Matrix.mulVec_diagonal]

theorem unit_vec {n : Nat} (M : Matrix (Fin n) (Fin n) ℂ) {mu : ℂ} (h : M.charpoly.IsRoot mu) :
    ∃ c : Fin n → ℂ, ∑ k, (starRingEnd ℂ) (c k) * c k = 1 ∧ M.mulVec c = mu • c := by
  obtain ⟨c, hc, e⟩ := root_vec M h
  set S : ℝ := ∑ k, ‖c k‖ ^ 2 with hS
  have hpos : 0 < S := by
    obtain ⟨k, hk⟩ := Function.ne_iff.1 hc
    refine Finset.sum_pos' (fun _ _ => by positivity) ⟨k, Finset.mem_univ _, ?_⟩
    have : ‖c k‖ ≠ 0 := norm_ne_zero_iff.2 hk
    positivity
  refine ⟨(((1 / Real.sqrt S : ℝ)) : ℂ) • c, ?_, ?_⟩
  · have : ∀ k, (starRingEnd ℂ) ((((1 / Real.sqrt S : ℝ) : ℂ) • c) k) * ((((1 / Real.sqrt S : ℝ) : ℂ) • c) k) = ((1 / S * ‖c k‖ ^ 2 : ℝ) : ℂ) := by
      intro k
      rw [Complex.conj_mul', ← Complex.ofReal_pow]
      congr 1
      rw [Pi.smul_apply, smul_eq_mul, norm_mul, Complex.norm_real, mul_pow, Real.norm_eq_abs, sq_abs, div_pow, Real.sq_sqrt hpos.le]
      ring
    rw [Finset.sum_congr rfl fun k _ => this k, ← Complex.ofReal_sum, ← Finset.mul_sum, ← hS, one_div_mul_cancel hpos.ne', Complex.ofReal_one]
  · rw [Matrix.mulVec_smul, e, smul_comm]

theorem exists_ceig (n : Nat) (M : Nat → Nat → ℂ) : ∃ e, IsCEig n M e := by
  set M' : Matrix (Fin n) (Fin n) ℂ := fun i k => M i k with hM
  have hcard : M'.charpoly.roots.toList.length = n := by
    rw [Multiset.length_toList, Polynomial.splits_iff_card_roots.1 (IsAlgClosed.splits M'.charpoly), Matrix.charpoly_natDegree_eq_dim, Fintype.card_fin]
  have hne : M'.charpoly ≠ 0 := (Matrix.charpoly_monic M').ne_zero
  have hroot : ∀ t : Fin n, M'.charpoly.IsRoot (M'.charpoly.roots.toList.getD t 0) := by
    intro t
    rw [getD_lt _ (by rw [hcard]; exact t.2)]
    exact (Polynomial.mem_roots hne).1 (Multiset.mem_toList.1 (List.getElem_mem _))
  choose c hc1 hc2 using fun t : Fin n => unit_vec M' (hroot t)
  refine ⟨⟨fun t => M'.charpoly.roots.toList.getD t 0, fun k t => if h : k < n ∧ t < n then c ⟨t, h.2⟩ ⟨k, h.1⟩ else 0⟩, ⟨?_, ?_, ?_⟩⟩
  · intro i hi t ht
    dsimp only
    rw [dif_pos ⟨hi, ht⟩, Finset.sum_range]
    have := congrFun (hc2 ⟨t, ht⟩) ⟨i, hi⟩
    rw [Pi.smul_apply, smul_eq_mul] at this
    rw [← this]
    refine Finset.sum_congr rfl fun k _ => ?_
    rw [dif_pos ⟨k.2, ht⟩]
  · intro t ht
    dsimp only
    rw [Finset.sum_range, ← hc1 ⟨t, ht⟩]
    refine Finset.sum_congr rfl fun k _ => ?_
    rw [dif_pos ⟨k.2, ht⟩]
  · intro mu d hd h
    have hr : M'.charpoly.IsRoot mu := by
      refine vec_root M' (c := fun k => d k) ?_ ?_
      · obtain ⟨k, hk, hk'⟩ := hd
        exact Function.ne_iff.2 ⟨⟨k, hk⟩, hk'⟩
      · ext i
        have := h i i.2
        rw [Finset.sum_range] at this
        exact this
    have hm : mu ∈ M'.charpoly.roots.toList := Multiset.mem_toList.2 ((Polynomial.mem_roots hne).2 hr)
    obtain ⟨t, ht, e⟩ := List.getElem_of_mem hm
    exact ⟨t, by omega, by dsimp only; rw [getD_lt _ ht, e]⟩

/-- A function with the documented behaviour exists. -/
theorem exists_eigen : ∃ eigen, EigenOK eigen := by
  choose f hf using exists_ceig
  exact ⟨f, fun n M _ => hf n M⟩

end Verif.Arnoldi
