import Mathlib.Data.Fin.VecNotation
import Mathlib.Tactic.FinCases
import Verif.Sites.SpinC80

/-! # C80: the tables of spins 1/2, 1 and 2 -/

open Matrix

namespace Verif.Sites

/-- The further names of operators of a spin. -/
structure SpinXY {d : Nat} (Sp Sm Sx Sy ISy : Matrix (Fin d) (Fin d) ℂ) : Prop where
  x : Sx = (1 / 2 : ℂ) • (Sp + Sm)
  y : Complex.I • Sy = (1 / 2 : ℂ) • (Sp - Sm)
  iy : ISy = Complex.I • Sy

/-- The matrix that the calls of a name give. -/
noncomputable def tabMat (d : Nat) (tab : String → Option (List (Nat × Nat × ℂ))) (name : String) :
    Matrix (Fin d) (Fin d) ℂ := mat d ((tab name).getD [])

theorem tab_ok {d : Nat} {tab : String → Option (List (Nat × Nat × ℂ))} {name : String} {l : List (Nat × Nat × ℂ)}
    (h : tab name = some l) : op d none tab name = .ok (tabMat d tab name) := by
  rw [op_ok h (uniform_none l), tabMat, h]
  rfl

/-- Closes a relation of explicit matrices element by element. -/
macro "elements" "[" ts:Lean.Parser.Tactic.simpLemma,* "]" : tactic => `(tactic|
  (ext i j
   fin_cases i <;> fin_cases j <;>
     simp [tabMat, mat_apply, mul_apply, Fin.sum_univ_succ, one_apply, conjTranspose_apply, $ts,*] <;> try ring_nf <;> simp <;> ring_nf))

@[simp] theorem sqrt2_sq : sqrt2 * sqrt2 = 2 := by
  unfold sqrt2
  rw [← Complex.ofReal_mul, Real.mul_self_sqrt (by norm_num)]
  norm_num

theorem sqrt2_ne : sqrt2 ≠ 0 := by
  intro h
  have := sqrt2_sq
  rw [h] at this
  norm_num at this

theorem isqrt2_eq : isqrt2 = sqrt2 / 2 := by
  have h := sqrt2_sq
  have hi : isqrt2 = 1 / sqrt2 := rfl
  rw [hi, div_eq_div_iff sqrt2_ne (by norm_num), one_mul, h]

@[simp] theorem sqrt2_pow : sqrt2 ^ 2 = 2 := by rw [pow_two, sqrt2_sq]

@[simp] theorem conj_sqrt2 : (starRingEnd ℂ) sqrt2 = sqrt2 := Complex.conj_ofReal _

theorem val1_eq : val1 = val2 / 2 := rfl

@[simp] theorem val2_pow : val2 ^ 2 = 6 := by
  unfold val2
  rw [pow_two, ← Complex.ofReal_mul, Real.mul_self_sqrt (by norm_num)]
  norm_num

@[simp] theorem val2_sq : val2 * val2 = 6 := by rw [← pow_two, val2_pow]

@[simp] theorem conj_val2 : (starRingEnd ℂ) val2 = val2 := Complex.conj_ofReal _

theorem half_spin : SpinAlgebra (1 / 2) (tabMat 2 halfOp "Sz") (tabMat 2 halfOp "S+") (tabMat 2 halfOp "S-") := by
  constructor
  · elements [halfOp]
  · elements [halfOp]
  · elements [halfOp]
  · elements [halfOp]
  · elements [halfOp]
  · elements [halfOp]

theorem one_spin : SpinAlgebra 1 (tabMat 3 oneOp "Sz") (tabMat 3 oneOp "S+") (tabMat 3 oneOp "S-") := by
  constructor
  · elements [oneOp]
  · elements [oneOp]
  · elements [oneOp]
  · elements [oneOp]
  · elements [oneOp]
  · elements [oneOp]

theorem two_spin : SpinAlgebra 2 (tabMat 5 twoOp "Sz") (tabMat 5 twoOp "S+") (tabMat 5 twoOp "S-") := by
  constructor
  · elements [twoOp]
  · elements [twoOp]
  · elements [twoOp]
  · elements [twoOp]
  · elements [twoOp]
  · elements [twoOp]

theorem half_xy : SpinXY (tabMat 2 halfOp "S+") (tabMat 2 halfOp "S-") (tabMat 2 halfOp "Sx") (tabMat 2 halfOp "Sy")
    (tabMat 2 halfOp "ISy") := by
  constructor
  · elements [halfOp]
  · elements [halfOp]
  · elements [halfOp]

theorem one_xy : SpinXY (tabMat 3 oneOp "S+") (tabMat 3 oneOp "S-") (tabMat 3 oneOp "Sx") (tabMat 3 oneOp "Sy")
    (tabMat 3 oneOp "ISy") := by
  constructor
  · elements [oneOp, isqrt2_eq]
  · elements [oneOp, isqrt2_eq]
  · elements [oneOp, isqrt2_eq]

theorem two_xy : SpinXY (tabMat 5 twoOp "S+") (tabMat 5 twoOp "S-") (tabMat 5 twoOp "Sx") (tabMat 5 twoOp "Sy")
    (tabMat 5 twoOp "ISy") := by
  constructor
  · elements [twoOp, val1_eq]
  · elements [twoOp, val1_eq]
  · elements [twoOp, val1_eq]

theorem one_squares : tabMat 3 oneOp "Sz2" = tabMat 3 oneOp "Sz" * tabMat 3 oneOp "Sz" ∧
    tabMat 3 oneOp "Sx2" = tabMat 3 oneOp "Sx" * tabMat 3 oneOp "Sx" ∧
    tabMat 3 oneOp "Sy2" = tabMat 3 oneOp "Sy" * tabMat 3 oneOp "Sy" := by
  refine ⟨?_, ?_, ?_⟩
  · elements [oneOp, isqrt2_eq]
  · elements [oneOp, isqrt2_eq]
  · elements [oneOp, isqrt2_eq]

theorem two_squares : tabMat 5 twoOp "Sz2" = tabMat 5 twoOp "Sz" * tabMat 5 twoOp "Sz" ∧
    tabMat 5 twoOp "Sx2" = tabMat 5 twoOp "Sx" * tabMat 5 twoOp "Sx" ∧
    tabMat 5 twoOp "Sy2" = tabMat 5 twoOp "Sy" * tabMat 5 twoOp "Sy" := by
  refine ⟨?_, ?_, ?_⟩
  · elements [twoOp, val1_eq]
  · elements [twoOp, val1_eq]
  · elements [twoOp, val1_eq]

end Verif.Sites
