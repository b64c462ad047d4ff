import Verif.Decomp.SvdRefC93
import Mathlib.LinearAlgebra.Matrix.Notation
import Mathlib.Tactic.FinCases
import Mathlib.Tactic.NormNum

/-!
# C93: a matrix that meets the hypotheses, and what the order of the eigenvalues is for
-/

namespace Verif.SvdRef

open Matrix

/-- Singular values 4 and 3, in the wrong order on the diagonal, and a column of zeros. -/
def M₀ : Matrix (Fin 2) (Fin 3) ℝ := !![3, 0, 0; 0, 0, 4]

/-- Its singular value decomposition, by hand. -/
def o₀ : Out ℝ 2 3 2 := ⟨!![0, 1; 1, 0], ![4, 3], !![0, 1; 0, 0; 1, 0]⟩

theorem o₀_svd : IsSvd M₀ o₀ where
  u := by ext i j; fin_cases i <;> fin_cases j <;> simp [o₀, Matrix.mul_apply, Fin.sum_univ_succ]
  v := by ext i j; fin_cases i <;> fin_cases j <;> simp [o₀, Matrix.mul_apply, Fin.sum_univ_succ]
  eq := by
    ext i j
    fin_cases i <;> fin_cases j <;>
      simp [M₀, o₀, dg, Matrix.mul_apply, Fin.sum_univ_succ, Matrix.vecMul_diagonal]
  nonneg := by intro i; fin_cases i <;> simp [o₀]
  anti := by
    intro i j h
    fin_cases i <;> fin_cases j <;> simp [o₀] at h ⊢
    norm_num

/-- Every right LAPACK that reports no error gives the singular values 4 and 3, also with a threshold
that makes the built-in SVD call itself. -/
example (L : Lapack ℝ) (hL : L.Right) (hT : L.Total) (lapack : Method ℝ) (hl : lapack.Right)
    (thresh : ℝ) :
    ∃ o : Out ℝ 2 3 2, svd L thresh lapack "ITensor" 2 M₀ = some (.ok ⟨2, o⟩) ∧ o.D = ![4, 3] := by
  obtain ⟨⟨k, o⟩, h⟩ := C93_returns hT thresh lapack (fuel := 2) (by norm_num) (by norm_num)
    (by norm_num) M₀
  obtain ⟨h1, h2, h3, h4, h5, h6⟩ := C93_svd hL thresh hl _ _ h
  have hk : k = 2 := by simpa using h1
  subst hk
  refine ⟨o, h, ?_⟩
  rw [svd_unique (M := M₀) (o := o) (o' := o₀) ⟨h2, h3, h4, h5, h6⟩ o₀_svd]
  rfl

/-- Such a LAPACK exists, and so does such a method. -/
example : ∃ (L : Lapack ℝ) (lapack : Method ℝ), L.Right ∧ L.Total ∧ lapack.Right ∧
    ∃ o, svd L (1/10) lapack "ITensor" 2 M₀ = some (.ok o) := by
  obtain ⟨L, hL, hT⟩ := C93_lapack (𝕜 := ℝ)
  refine ⟨L, fun m n M => impl L 0 m m n M, hL, hT, ?_, ?_⟩
  · intro m n M o hmn h
    exact impl_svd hL 0 m hmn h
  · exact C93_returns hT _ _ (by norm_num) (by norm_num) (by norm_num) _

/-- A value below the threshold makes the built-in SVD call itself: with values 4, 1, 1 and a threshold
of 1/2 the last two are decomposed again. -/
example : checkDone (![4, 1, 1, 1] : Fin 4 → ℝ) (1/2) = (false, 1) := by
  unfold checkDone
  rw [dif_neg (by norm_num)]
  have : scan (![4, 1, 1, 1] : Fin 4 → ℝ) ((![4, 1, 1, 1] : Fin 4 → ℝ) 0 * (1/2)) 4 1 = 1 := by
    unfold scan
    rw [dif_pos (by norm_num), if_pos]
    simp
    norm_num
  dsimp only
  erw [this]
  simp

/-- An upper triangular matrix with orthogonal columns need not be diagonal if the squares of its
columns are not in descending order: this is why LAPACK gets `-M` in `diagHermitian`. -/
example : ∃ (R : Matrix (Fin 2) (Fin 2) ℝ) (D : Fin 2 → ℝ),
    (∀ i j : Fin 2, j.val < i.val → R i j = 0) ∧ Rᴴ * R = dg D ∧ R 0 1 ≠ 0 := by
  refine ⟨!![0, 1; 0, 0], ![0, 1], ?_, ?_, by simp⟩
  · intro i j h
    fin_cases i <;> fin_cases j <;> simp at h ⊢
  · ext i j
    fin_cases i <;> fin_cases j <;>
      simp [dg, Matrix.mul_apply, Fin.sum_univ_succ, Matrix.diagonal_apply]

/-- `PositiveDiagonal`: the second row of `R` and the second column of `Q` change sign. -/
example : posLoop ((!![1, 0; 0, 1], !![2, 5; 0, -3]) :
    Matrix (Fin 2) (Fin 2) ℝ × Matrix (Fin 2) (Fin 2) ℝ) = (!![1, 0; 0, -1], !![2, 5; 0, 3]) := by
  rw [posLoop_eq]
  refine Prod.ext ?_ ?_ <;>
    (ext i j; fin_cases i <;> fin_cases j <;>
      simp [sgn, Matrix.mul_apply, Matrix.diagonal_apply, (by norm_num : ¬ (2 : ℝ) < 0)])

end Verif.SvdRef
