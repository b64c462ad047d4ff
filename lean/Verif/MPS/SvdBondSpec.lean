import Verif.MPS.SvdBond
import Verif.MPS.DmrgNumSpec
import Verif.MPS.ApplyMPOEig
import Verif.Decomp.TruncateProps

/-! # Linear algebra for the factorization in `svdBond` -/

noncomputable section

namespace Verif.SvdBond

open Finset Verif.Limits Verif.DmrgNum Matrix

variable {𝕜 : Type*} [RCLike 𝕜]

/-- The square of the norm of a matrix. -/
def fro {R C : Type*} [Fintype R] [Fintype C] (A : Matrix R C 𝕜) : ℝ := ∑ i, ∑ j, ‖A i j‖ ^ 2

/-- The diagonalization and the singular value decomposition are right (C93). -/
structure Tools.Right (T : Tools 𝕜) : Prop where
  anti : ∀ a b H, H.IsHermitian → Antitone (T.eig a b H).1
  orth : ∀ a b H, H.IsHermitian → (T.eig a b H).2ᴴ * (T.eig a b H).2 = 1
  eig : ∀ a b H, H.IsHermitian → H = (T.eig a b H).2 * Matrix.diagonal (fun j => ((T.eig a b H).1 j : 𝕜)) * (T.eig a b H).2ᴴ
  santi : ∀ a b c d A, Antitone (T.svd a b c d A).2.1
  snonneg : ∀ a b c d A j, 0 ≤ (T.svd a b c d A).2.1 j
  sU : ∀ a b c d A, (T.svd a b c d A).1ᴴ * (T.svd a b c d A).1 = 1
  sV : ∀ a b c d A, (T.svd a b c d A).2.2ᴴ * (T.svd a b c d A).2.2 = 1
  svd : ∀ a b c d A, A = (T.svd a b c d A).1 * Matrix.diagonal (fun j => ((T.svd a b c d A).2.1 j : 𝕜)) * (T.svd a b c d A).2.2ᴴ
  eps : 0 < T.eps

section Fro

variable {R C P : Type*} [Fintype R] [Fintype C] [Fintype P]

theorem fro_nonneg (A : Matrix R C 𝕜) : 0 ≤ fro A := sum_nonneg fun _ _ => sum_nonneg fun _ _ => by positivity

theorem fro_trace (A : Matrix R C 𝕜) : ((fro A : ℝ) : 𝕜) = Matrix.trace (Aᴴ * A) := by
  unfold fro Matrix.trace
  rw [sum_comm]
  push_cast
  refine sum_congr rfl fun j _ => ?_
  rw [Matrix.diag_apply, Matrix.mul_apply]
  refine sum_congr rfl fun i _ => ?_
  rw [Matrix.conjTranspose_apply, RCLike.star_def, RCLike.conj_mul]

theorem fro_transpose (A : Matrix R C 𝕜) : fro Aᵀ = fro A := by
  unfold fro
  rw [sum_comm]
  rfl

theorem fro_conjTranspose (A : Matrix R C 𝕜) : fro Aᴴ = fro A := by
  unfold fro
  rw [sum_comm]
  refine sum_congr rfl fun i _ => sum_congr rfl fun j _ => ?_
  rw [Matrix.conjTranspose_apply, norm_star]

theorem fro_smul (s : ℝ) (A : Matrix R C 𝕜) : fro ((s : 𝕜) • A) = s ^ 2 * fro A := by
  unfold fro
  rw [mul_sum]
  refine sum_congr rfl fun i _ => ?_
  rw [mul_sum]
  refine sum_congr rfl fun j _ => ?_
  rw [Matrix.smul_apply, norm_smul, mul_pow]
  congr 1
  rw [RCLike.norm_ofReal, sq_abs]

theorem nrm_sq (A : Matrix R C 𝕜) : nrm A ^ 2 = fro A := Real.sq_sqrt (fro_nonneg A)

variable [DecidableEq P]

/-- An isometry keeps the norm. -/
theorem fro_isometry {Q : Matrix R P 𝕜} (hQ : Qᴴ * Q = 1) (N : Matrix P C 𝕜) : fro (Q * N) = fro N := by
  have : ((fro (Q * N) : ℝ) : 𝕜) = (fro N : ℝ) := by
    rw [fro_trace, fro_trace, Matrix.conjTranspose_mul, Matrix.mul_assoc, ← Matrix.mul_assoc Qᴴ, hQ, Matrix.one_mul]
  exact_mod_cast this

/-- The error of an orthogonal projection. -/
theorem fro_error {Q : Matrix R P 𝕜} (hQ : Qᴴ * Q = 1) (A : Matrix R C 𝕜) : fro (A - Q * (Qᴴ * A)) = fro A - fro (Qᴴ * A) := by
  have h : (A - Q * (Qᴴ * A))ᴴ * (A - Q * (Qᴴ * A)) = Aᴴ * A - (Qᴴ * A)ᴴ * (Qᴴ * A) := by
    rw [Matrix.conjTranspose_sub, Matrix.conjTranspose_mul Q, Matrix.sub_mul, Matrix.mul_sub, Matrix.mul_sub]
    have e1 : (Qᴴ * A)ᴴ * Qᴴ * (Q * (Qᴴ * A)) = (Qᴴ * A)ᴴ * (Qᴴ * A) := by
      rw [Matrix.mul_assoc, ← Matrix.mul_assoc Qᴴ, hQ, Matrix.one_mul]
    have e2 : Aᴴ * (Q * (Qᴴ * A)) = (Qᴴ * A)ᴴ * (Qᴴ * A) := by
      rw [Matrix.conjTranspose_mul, Matrix.conjTranspose_conjTranspose, ← Matrix.mul_assoc]
    have e3 : (Qᴴ * A)ᴴ * Qᴴ * A = (Qᴴ * A)ᴴ * (Qᴴ * A) := by rw [Matrix.mul_assoc]
    rw [e1, e2, e3]
    simp
  have : ((fro (A - Q * (Qᴴ * A)) : ℝ) : 𝕜) = ((fro A - fro (Qᴴ * A) : ℝ) : 𝕜) := by
    rw [fro_trace, h, Matrix.trace_sub, ← fro_trace, ← fro_trace]
    push_cast
    rfl
  exact_mod_cast this

/-- What is left out is orthogonal to what is kept. -/
theorem inner_error {Q : Matrix R P 𝕜} (hQ : Qᴴ * Q = 1) (A : Matrix R C 𝕜) :
    ∑ i, ∑ j, star ((Q * (Qᴴ * A)) i j) * (A i j - (Q * (Qᴴ * A)) i j) = 0 := by
  have h : (Q * (Qᴴ * A))ᴴ * (A - Q * (Qᴴ * A)) = 0 := by
    rw [Matrix.conjTranspose_mul, Matrix.mul_assoc, Matrix.mul_sub, ← Matrix.mul_assoc Qᴴ Q, hQ, Matrix.one_mul, sub_self, Matrix.mul_zero]
  have h2 := congrArg Matrix.trace h
  rw [Matrix.trace_zero] at h2
  rw [← h2, sum_comm]
  unfold Matrix.trace
  refine sum_congr rfl fun j _ => ?_
  rw [Matrix.diag_apply, Matrix.mul_apply]
  rfl

end Fro

section Cols

variable {R C : Type*} [Fintype R] [Fintype C] {n : ℕ}

theorem cutCols_apply (U : Matrix R (Fin n) 𝕜) {k : ℕ} (hk : k ≤ n) (i : R) (j : Fin k) : cutCols U k i j = U i (Fin.castLE hk j) := by
  rw [cutCols, Matrix.of_apply, dif_pos (by omega)]
  rfl

theorem cutCols_orth {U : Matrix R (Fin n) 𝕜} (hU : Uᴴ * U = 1) {k : ℕ} (hk : k ≤ n) : (cutCols U k)ᴴ * cutCols U k = 1 := by
  ext i j
  have := congrFun (congrFun hU (Fin.castLE hk i)) (Fin.castLE hk j)
  rw [Matrix.mul_apply] at this ⊢
  rw [Matrix.one_apply] at this ⊢
  simp only [Matrix.conjTranspose_apply] at this ⊢
  simp only [cutCols_apply U hk]
  rw [this]
  simp

/-- The part of `A` along each of the vectors. -/
def part (U : Matrix R (Fin n) 𝕜) (A : Matrix R C 𝕜) (j : Fin n) : ℝ := ∑ c, ‖(Uᴴ * A) j c‖ ^ 2

theorem part_nonneg (U : Matrix R (Fin n) 𝕜) (A : Matrix R C 𝕜) (j : Fin n) : 0 ≤ part U A j := sum_nonneg fun _ _ => by positivity

theorem fro_cut (U : Matrix R (Fin n) 𝕜) (A : Matrix R C 𝕜) {k : ℕ} (hk : k ≤ n) :
    fro ((cutCols U k)ᴴ * A) = ∑ j : Fin k, part U A (Fin.castLE hk j) := by
  unfold fro part
  refine sum_congr rfl fun j _ => sum_congr rfl fun c _ => ?_
  rw [Matrix.mul_apply, Matrix.mul_apply]
  simp only [Matrix.conjTranspose_apply, cutCols_apply U hk]

theorem part_diag (U : Matrix R (Fin n) 𝕜) (A : Matrix R C 𝕜) (j : Fin n) : ((part U A j : ℝ) : 𝕜) = (Uᴴ * (A * Aᴴ) * U) j j := by
  have : Uᴴ * (A * Aᴴ) * U = (Uᴴ * A) * (Uᴴ * A)ᴴ := by
    rw [Matrix.conjTranspose_mul, Matrix.conjTranspose_conjTranspose]
    simp only [Matrix.mul_assoc]
  rw [this, Matrix.mul_apply, part]
  push_cast
  refine sum_congr rfl fun c _ => ?_
  rw [Matrix.conjTranspose_apply, RCLike.star_def, RCLike.mul_conj]

theorem sum_part [DecidableEq R] {U : Matrix R (Fin n) 𝕜} (hU : U * Uᴴ = 1) (A : Matrix R C 𝕜) : ∑ j, part U A j = fro A := by
  have : fro (Uᴴ * A) = fro A := fro_isometry (by rw [Matrix.conjTranspose_conjTranspose, hU]) A
  exact this

end Cols

/-! ### Lists -/

theorem sum_castLE {n k : ℕ} (f : Fin n → ℝ) (hk : k ≤ n) : ∑ j : Fin k, f (Fin.castLE hk j) = ((List.ofFn f).take k).sum := by
  have : (List.ofFn f).take k = List.ofFn fun j : Fin k => f (Fin.castLE hk j) := by
    apply List.ext_getElem
    · simp [hk]
    · intro i h1 h2
      simp [List.getElem_take]
  rw [this, List.sum_ofFn]

theorem sum_drop {n k : ℕ} (f : Fin n → ℝ) (hk : k ≤ n) : ((List.ofFn f).drop k).sum = ∑ j, f j - ∑ j : Fin k, f (Fin.castLE hk j) := by
  rw [sum_castLE, ← List.sum_ofFn]
  have := List.sum_take_add_sum_drop (List.ofFn f) k
  linarith

theorem drop_le {n : ℕ} {f g : Fin n → ℝ} (h : ∀ j, f j ≤ g j) (k : ℕ) : ((List.ofFn f).drop k).sum ≤ ((List.ofFn g).drop k).sum := by
  apply List.Forall₂.sum_le_sum
  rw [List.forall₂_iff_get]
  refine ⟨by simp, fun i h1 h2 => ?_⟩
  simp only [List.get_eq_getElem, List.getElem_drop, List.getElem_ofFn]
  exact h _

theorem drop_mul {n : ℕ} (c : ℝ) (f : Fin n → ℝ) (k : ℕ) : ((List.ofFn fun j => c * f j).drop k).sum = c * ((List.ofFn f).drop k).sum := by
  have : (List.ofFn fun j => c * f j) = (List.ofFn f).map (c * ·) := by simp [List.ofFn_eq_map]
  rw [this, ← List.map_drop, List.sum_map_mul_left, List.map_id']

theorem desc_ofFn {n : ℕ} {f : Fin n → ℝ} (h : Antitone f) : Decomp.Desc (List.ofFn f) := by
  unfold Decomp.Desc
  rw [List.pairwise_ofFn]
  exact fun i j hij => h hij.le

/-- What `truncate` keeps in general: not more than there is, and not more than `MaxDim`. -/
theorem keep_le {eps : ℝ} (he : 0 < eps) {P : List ℝ} (hP : P ≠ []) (hd : Decomp.Desc P) (h0 : ∀ x ∈ P, 0 ≤ x) (o : Decomp.Opts ℝ)
    (hmax : 1 ≤ o.maxdim) (hmin : 1 ≤ o.mindim) : ∃ out, Decomp.truncate eps o P = .ok out ∧
      out.P.length ≤ P.length ∧ (out.P.length : Int) ≤ o.maxdim := by
  match P, hP with
  | p :: l, _ =>
    rcases (h0 p (by simp)).eq_or_lt with hp | hp
    · have : Decomp.truncate eps o (p :: l) = .ok ⟨[p], 0, -eps, eps, 1⟩ := by
        cases l with
        | nil => rw [Decomp.truncate, if_pos hp.symm]
        | cons p' l => rw [Decomp.truncate, if_pos hp.symm]
      exact ⟨_, this, by simp, by simpa using hmax⟩
    · have hw : (Decomp.weights (p :: l)).length = (p :: l).length := by simp [Decomp.weights]
      cases hr : o.respect with
      | false =>
        obtain ⟨out, m, h1, h2, h3, h4, h5, -⟩ := Decomp.C34_truncate_partial he o hd hp hmax hmin hr
        refine ⟨out, h1, ?_, by rw [h3]; exact h5⟩
        rw [h2, List.length_take, hw]
        exact min_le_right _ _
      | true =>
        obtain ⟨out, m, h1, h2, h3, h4, -⟩ := Decomp.C36_multiplet_partial he o hd hp hmax hmin hr
        refine ⟨out, h1, ?_, by rw [h3]; exact h4⟩
        rw [h2, List.length_take, hw]
        exact min_le_right _ _

end Verif.SvdBond
