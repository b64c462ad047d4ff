import Verif.Base
import Mathlib.Analysis.Matrix.Normed
import Mathlib.Analysis.RCLike.Basic
import Mathlib.Analysis.SpecialFunctions.Log.Basic
import Mathlib.LinearAlgebra.Matrix.NonsingularInverse

/-!
# Model of the exponential of a matrix

`expMatrix` (algs_impl.h:256-284) and `expPade` (algs.cc:825-1055); the real and the complex version are the same text, so one model over `𝕜` serves both. Numbers are exact.
`dgesv`, `zgesv` solve the equation exactly, or fail when the matrix is singular. `dlange('I',…)`, `zlange('I',…)` is the largest sum of the absolute values of a row.
Matrices are square by type; the check for it (algs_impl.h:265-269) is left out.
-/

noncomputable section

namespace Verif.Expo

variable {𝕜 : Type*} [RCLike 𝕜] {N : Nat}

/-- Square matrices. -/
abbrev Mx (𝕜 : Type*) (N : Nat) := Matrix (Fin N) (Fin N) 𝕜

/-- `dlange_wrapper('I',N,N,F.data())` (algs.cc:835, lapack_wrap.cc:624-644). -/
def infNorm (F : Mx 𝕜 N) : ℝ := ((Finset.univ.sup fun i => ∑ j, ‖F i j‖₊ : NNReal) : ℝ)

/-- `(int)x` of a number of moderate size: rounding towards zero. -/
def toInt (x : ℝ) : ℤ := if x < 0 then ⌈x⌉ else ⌊x⌋

/-- `ns = std::max(0,(int)(std::log(ns)/log(2))+2)` (algs.cc:839). -/
def scaling (nrm : ℝ) : Nat := (max 0 (toInt (Real.log nrm / Real.log 2) + 2)).toNat

/-- The coefficients (algs.cc:846-851). -/
def coef (ideg : Nat) : Nat → ℝ
  | 0 => 1
  | k + 1 => coef ideg k * (((ideg : ℝ) + 1 - (k + 1 : Nat)) / ((k + 1 : Nat) * (2 * (ideg : ℝ) + 1 - (k + 1 : Nat))))

/-- The loop of the Horner rule (algs.cc:875-895); the argument is the loop variable `k`, the result `Q`, `P` and `odd`. -/
def horner (c : Nat → ℝ) (F2 : Mx 𝕜 N) : Nat → Bool → Mx 𝕜 N → Mx 𝕜 N → Mx 𝕜 N × Mx 𝕜 N × Bool
  | 0, odd, Q, P => (Q, P, odd)
  | k + 1, true, Q, P => horner c F2 k false (Q * F2 + c k • 1) P
  | k + 1, false, Q, P => horner c F2 k true Q (P * F2 + c k • 1)

/-- The loop of the squarings (algs.cc:924-927). -/
def squarings : Nat → Mx 𝕜 N → Mx 𝕜 N
  | 0, P => P
  | k + 1, P => squarings k (P * P)

/-- `expPade` (algs.cc:826-938 and 940-1053). The logarithm of zero is minus infinity, whose conversion to `int` is undefined (unless `DEBUG` is set, then the function throws). -/
def expPade (F : Mx 𝕜 N) (ideg : Nat) : Res (Mx 𝕜 N) :=
  if infNorm F = 0 then .ub
  else
    let ns := scaling (infNorm F)
    let scale : ℝ := (1 / 2) ^ ns
    let F2 := (scale * scale) • (F * F)
    let r := horner (coef ideg) F2 (ideg - 1) true (coef ideg ideg • 1) (coef ideg (ideg - 1) • 1)
    let odd := r.2.2
    let Q := if odd then (scale • r.1) * F else r.1
    let P := if odd then r.2.1 else (scale • r.2.1) * F
    let Q := Q - P
    if Q.det = 0 then .throw
    else
      let X := (2 : ℝ) • (Q⁻¹ * P) + 1
      .ok (squarings ns (if ns = 0 ∧ odd then -X else X))

/-- `expMatrix(M,t,ideg)` (algs_impl.h:256-284). -/
def expMatrix (M : Mx 𝕜 N) (t : 𝕜) (ideg : Int) : Res (Mx 𝕜 N) :=
  if ideg ≤ 0 then .throw
  else if N < 1 then .throw
  else expPade (t • M) ideg.toNat

end Verif.Expo
