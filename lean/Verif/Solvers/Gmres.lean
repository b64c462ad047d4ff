import Verif.Base
import Mathlib.Analysis.InnerProductSpace.Basic
import Mathlib.Analysis.SpecialFunctions.Pow.Complex

/-!
# Model of GMRES

`gmres` (iterativesolvers.h:454-668). As in `Davidson.lean` vectors are elements of an inner product space and numbers are exact; `𝕜` is the type `T` of `gmresImpl`, `sq` its
`std::sqrt`. Where the code divides by zero, so that its numbers become infinite or not numbers, the outcome is `ub`. Output is left out.
-/

noncomputable section

namespace Verif.Solvers

open scoped BigOperators

variable {𝕜 E : Type*} [RCLike 𝕜] [NormedAddCommGroup E] [InnerProductSpace 𝕜 E]

/-- The options (iterativesolvers.h:536-539), not negative. -/
structure GOpts where
  maxIter : Nat
  m : Nat
  tol : ℝ

/-- The arrays of `gmresImpl` (iterativesolvers.h:542-568); `none` is a vector without storage. -/
structure GSt (𝕜 E : Type*) where
  v : Nat → Option E
  H : Nat → Nat → 𝕜
  s : Nat → 𝕜
  cs : Nat → 𝕜
  sn : Nat → 𝕜

/-- `generatePlaneRotation` (iterativesolvers.h:473-494). -/
def rotGen (sq : 𝕜 → 𝕜) (dx dy : 𝕜) : Res (𝕜 × 𝕜) :=
  if dy = 0 then .ok (1, 0)
  else if ‖dx‖ < ‖dy‖ then
    let temp := dx / dy
    if sq (1 + temp * temp) = 0 then .ub else .ok (temp * (1 / sq (1 + temp * temp)), 1 / sq (1 + temp * temp))
  else
    let temp := dy / dx
    if sq (1 + temp * temp) = 0 then .ub else .ok (1 / sq (1 + temp * temp), temp * (1 / sq (1 + temp * temp)))

/-- `applyPlaneRotation` (iterativesolvers.h:496-510); conjugation does nothing to real numbers. -/
def rotApp (cs sn dx dy : 𝕜) : 𝕜 × 𝕜 := ((starRingEnd 𝕜) cs * dx + (starRingEnd 𝕜) sn * dy, -sn * dx + cs * dy)

/-- The orthogonalization of `w` (iterativesolvers.h:586-590): the rest of `w` and the column of coefficients. `dot(w,v[k])` is `dag(w)*v[k]`. -/
def mgs (𝕜 : Type*) {E : Type*} [RCLike 𝕜] [NormedAddCommGroup E] [InnerProductSpace 𝕜 E] (v : Nat → Option E) (w : E) (col : Nat → 𝕜) : Nat → Res (E × (Nat → 𝕜))
  | 0 => .ok (w, col)
  | k + 1 => (mgs 𝕜 v w col k).bind fun r => match v k with
    | none => .throw
    | some x => .ok (r.1 - inner 𝕜 r.1 x • x, Function.update r.2 k (inner 𝕜 r.1 x))

/-- The rotations of the earlier columns applied to a column (iterativesolvers.h:610-611). -/
def rotCol (cs sn : Nat → 𝕜) (col : Nat → 𝕜) : Nat → Nat → 𝕜
  | 0 => col
  | k + 1 =>
    let c := rotCol cs sn col k
    let p := rotApp (cs k) (sn k) (c k) (c (k + 1))
    Function.update (Function.update c k p.1) (k + 1) p.2

/-- One step of the inner loop (iterativesolvers.h:579-615). -/
def gstep (A : E → E) (sq : 𝕜 → 𝕜) (i : Nat) (st : GSt 𝕜 E) : Res (GSt 𝕜 E) :=
  match st.v i with
  | none => .throw
  | some x =>
    (mgs 𝕜 st.v (A x) (fun k => st.H k i) (i + 1)).bind fun r =>
    let w := r.1
    let col := Function.update r.2 (i + 1) (‖w‖ : 𝕜)
    let v := if ‖w‖ = 0 then st.v else Function.update st.v (i + 1) (some (((1 / ‖w‖ : ℝ) : 𝕜) • w))
    let col := rotCol st.cs st.sn col i
    (rotGen sq (col i) (col (i + 1))).bind fun g =>
    let p := rotApp g.1 g.2 (col i) (col (i + 1))
    let col := Function.update (Function.update col i p.1) (i + 1) p.2
    let q := rotApp g.1 g.2 (st.s i) (st.s (i + 1))
    .ok ⟨v, fun a b => if b = i then col a else st.H a b, Function.update (Function.update st.s i q.1) (i + 1) q.2,
      Function.update st.cs i g.1, Function.update st.sn i g.2⟩

/-- The back substitution of `update` (iterativesolvers.h:461-467) from row `t-1` down. -/
def backsolve (H : Nat → Nat → 𝕜) : Nat → (Nat → 𝕜) → Res (Nat → 𝕜)
  | 0, y => .ok y
  | t + 1, y =>
    if H t t = 0 then .ub
    else backsolve H t fun j => if j = t then y t / H t t else if j < t then y j - H j t * (y t / H t t) else y j

/-- `x += y[j] * v[j]` (iterativesolvers.h:469-470). -/
def addAll (v : Nat → Option E) (y : Nat → 𝕜) (x : E) : Nat → Res E
  | 0 => .ok x
  | k + 1 => (addAll v y x k).bind fun z => match v k with
    | none => .throw
    | some u => .ok (z + y k • u)

/-- `update(x,i-1,H,s,v)` (iterativesolvers.h:455-471), for the first `i` columns. -/
def gupdate (x : E) (i : Nat) (st : GSt 𝕜 E) : Res E :=
  (backsolve st.H i st.s).bind fun y => addAll st.v y x i

/-- The inner loop (iterativesolvers.h:579-625) for at most `rem` more steps: the state, the number of columns and whether the estimate is below the tolerance. -/
def gcycle (A : E → E) (sq : 𝕜 → 𝕜) (normb tol : ℝ) : Nat → Nat → GSt 𝕜 E → Res (GSt 𝕜 E × Nat × Bool)
  | 0, i, st => .ok (st, i, false)
  | rem + 1, i, st => (gstep A sq i st).bind fun st =>
    if ‖st.s (i + 1)‖ / normb < tol then .ok (st, i + 1, true) else gcycle A sq normb tol rem (i + 1) st

/-- The outer loop (iterativesolvers.h:570-635); `left` is `max_iter - j + 1`. `none`: not ended after `fuel` rounds. -/
def gouter (A : E → E) (sq : 𝕜 → 𝕜) (b : E) (normb : ℝ) (o : GOpts) : Nat → Nat → E → E → GSt 𝕜 E → Option (Res E)
  | 0, _, _, _, _ => none
  | fuel + 1, left, x, r, st =>
    if left = 0 then some (.ok x)
    else if ‖r‖ = 0 then some .ub
    else
      let st := { st with v := Function.update st.v 0 (some (((1 / ‖r‖ : ℝ) : 𝕜) • r)), s := fun k => if k = 0 then (‖r‖ : 𝕜) else 0 }
      match gcycle A sq normb o.tol (min o.m left) 0 st with
      | .throw => some .throw
      | .ub => some .ub
      | .ok (st, i, done) => match gupdate x i st with
        | .throw => some .throw
        | .ub => some .ub
        | .ok x =>
          if done then some (.ok x)
          else
            let r := b - A x
            if ‖r‖ / normb < o.tol then some (.ok x)
            else gouter A sq b normb o fuel (left - min o.m left) x r st

/-- `gmres` (iterativesolvers.h:528-668): `A x` is computed first; nothing is done if the residual is small. -/
def gmres (A : E → E) (sq : 𝕜 → 𝕜) (b x : E) (o : GOpts) (st : GSt 𝕜 E) (fuel : Nat) : Option (Res E) :=
  let normb := if ‖b‖ = 0 then 1 else ‖b‖
  let r := b - A x
  if ‖r‖ / normb ≤ o.tol then some (.ok x) else gouter A sq b normb o fuel o.maxIter x r st

end Verif.Solvers
