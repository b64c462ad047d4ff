import Verif.Base
import Mathlib.Analysis.InnerProductSpace.Basic
import Mathlib.Data.Matrix.Basic

/-!
# Model of applyExp

`applyExp` (iterativesolvers.h:955-1080), which replaces `phi` by `exp(tau*H)*phi` with the Lanczos method. Vectors are elements of an inner product space `E` over `𝕜` and numbers are
exact; `H.product` is a function `H : E → E`, `expMatrix(tmat,tau)` a parameter `exm`. A division by zero, after which the numbers are not numbers, is the outcome `ub`. `MaxIter` is not
negative. Output and the count of multiplications are left out.
-/

noncomputable section

namespace Verif.Expo

variable {𝕜 E : Type*} [RCLike 𝕜] [NormedAddCommGroup E] [InnerProductSpace 𝕜 E]

/-- The options (iterativesolvers.h:973-976). -/
structure AOpts where
  tol : ℝ
  maxIter : Nat
  betaTol : ℝ

/-- The variables of the loop (iterativesolvers.h:979-992): `lv` holds the Lanczos vectors, `T` is `bigTmat`. -/
structure ASt (E : Type*) where
  v1 : E
  v0 : E
  lv : List E
  T : Nat → Nat → ℝ
  beta : ℝ

/-- `subMatrix(T,0,n,0,n)` as a matrix of the type of the result of `expMatrix`. -/
def subMat (𝕜 : Type*) [RCLike 𝕜] (T : Nat → Nat → ℝ) (n : Nat) : Matrix (Fin n) (Fin n) 𝕜 := fun i j => (T i j : 𝕜)

/-- `T(i,j) = x`. -/
def setM (T : Nat → Nat → ℝ) (i j : Nat) (x : ℝ) : Nat → Nat → ℝ := fun a b => if a = i ∧ b = j then x else T a b

/-- `assembleLanczosVectors` (iterativesolvers.h:955-965); the coefficients are given as a function. -/
def assemble (nrm : ℝ) (lv : List E) (c : Nat → 𝕜) : E := ((lv.mapIdx fun i v => ((nrm : 𝕜) * c i) • v)).sum

/-- Column 0 of a matrix as a function. -/
def col0 {n : Nat} (X : Matrix (Fin n) (Fin n) 𝕜) (i : Nat) : 𝕜 := if h : i < n then X ⟨i, h⟩ ⟨0, by omega⟩ else 0

/-- The extended matrix (iterativesolvers.h:1028-1035), `m` being `tmat_size`. -/
def extMat (T : Nat → Nat → ℝ) (m : Nat) : Nat → Nat → ℝ := setM (setM T (m - 1) m 0) (m + 1) m 1

/-- The error estimate (iterativesolvers.h:1040-1045). -/
def errEst (phi1 phi2 : ℝ) : ℝ := if phi1 > 10 * phi2 then phi2 else if phi1 > phi2 then phi1 * phi2 / (phi1 - phi2) else phi1

/-- The loop (iterativesolvers.h:993-1064) from iteration `iter` on; the first argument is the number of iterations left. After the last the vector is unchanged. -/
def lanLoop (H : E → E) (exm : (n : Nat) → Matrix (Fin n) (Fin n) 𝕜 → Res (Matrix (Fin n) (Fin n) 𝕜)) (o : AOpts) (phi : E) (nrm : ℝ) : Nat → Nat → ASt E → Res E
  | 0, _, _ => .ok phi
  | rem + 1, iter, s =>
    let w := H s.v1
    let avnorm := ‖w‖
    let alpha := RCLike.re (inner 𝕜 w s.v1)
    let T := setM s.T iter iter alpha
    let w := w - (alpha : 𝕜) • s.v1
    let w := if iter > 0 then w - (s.beta : 𝕜) • s.v0 else w
    let beta := ‖w‖
    if |beta| < o.betaTol then
      (exm (iter + 1) (subMat 𝕜 T (iter + 1))).bind fun X => .ok (assemble nrm s.lv (col0 X))
    else if beta = 0 then .ub
    else
      let v1 := ((1 / beta : ℝ) : 𝕜) • w
      let lv := s.lv ++ [v1]
      let T := setM (setM T (iter + 1) iter beta) iter (iter + 1) beta
      let s' : ASt E := ⟨v1, s.v1, lv, T, beta⟩
      if iter > 0 then
        (exm (iter + 3) (subMat 𝕜 (extMat T (iter + 1)) (iter + 3))).bind fun X =>
        let phi1 := ‖(nrm : 𝕜) * col0 X (iter + 1)‖
        let phi2 := ‖(nrm : 𝕜) * col0 X (iter + 2) * (avnorm : 𝕜)‖
        if errEst phi1 phi2 < o.tol ∨ iter + 1 = o.maxIter then .ok (assemble nrm lv (col0 X))
        else lanLoop H exm o phi nrm rem (iter + 1) s'
      else lanLoop H exm o phi nrm rem (iter + 1) s'

/-- `applyExp` (iterativesolvers.h:967-1070): the new value of `phi`. -/
def applyExp (H : E → E) (exm : (n : Nat) → Matrix (Fin n) (Fin n) 𝕜 → Res (Matrix (Fin n) (Fin n) 𝕜)) (o : AOpts) (phi : E) : Res E :=
  if ‖phi‖ = 0 then .ub
  else
    let v1 := ((1 / ‖phi‖ : ℝ) : 𝕜) • phi
    lanLoop H exm o phi ‖phi‖ o.maxIter 0 ⟨v1, 0, [v1], fun _ _ => 0, 0⟩

end Verif.Expo
