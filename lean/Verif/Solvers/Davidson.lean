import Verif.Base
import Mathlib.Analysis.InnerProductSpace.Basic
import Mathlib.Analysis.InnerProductSpace.Symmetric

/-!
# Model of the Davidson eigensolver

`davidson` (iterativesolvers.h:99-452). Vectors are elements of an inner product space `E` over the real or complex numbers `𝕜`, so numbers are exact;
`A.product` is a function `A : E → E`. `diagHermitian` of a small matrix is a parameter (`diag`). `randomize` gives the vectors `rnd 0`, `rnd 1`, … of an
arbitrary sequence. Output and timers are left out.
-/

noncomputable section

namespace Verif.Solvers

open scoped BigOperators

variable {𝕜 E : Type*} [RCLike 𝕜] [NormedAddCommGroup E] [InnerProductSpace 𝕜 E]

/-- What `diagHermitian(M,U,d)` returns (algs.h:25-43): values and matrix of eigenvectors, `U k t` being component `k` of number `t`. -/
structure Eig (𝕜 : Type*) where
  d : Nat → ℝ
  U : Nat → Nat → 𝕜

/-- The options (iterativesolvers.h:101-106). -/
structure DOpts where
  maxiter : Nat
  errgoal : ℝ
  miniter : Nat

/-- The variables of the loop. `V` and `AV` hold the entries which have been set, `M` the matrix, `phi` and `eigs` the vectors and values to be returned
(`none`: not a number), `last` the size, values and vectors of the latest diagonalization, `nr` how many random vectors have been used. -/
structure DSt (𝕜 E : Type*) where
  V : List E
  AV : List E
  M : Nat → Nat → 𝕜
  phi : List E
  eigs : List (Option ℝ)
  t : Nat
  lastLam : ℝ
  last : Option (Nat × Eig 𝕜)
  nr : Nat

/-- `while(nrm == 0.0) randomize` and the division (iterativesolvers.h:114-121) for one vector. -/
def initVec (rnd : Nat → E) : Nat → E → Nat → Option (E × Nat)
  | 0, _, _ => none
  | fuel + 1, x, nr => if ‖x‖ = 0 then initVec rnd fuel (rnd nr) (nr + 1) else some (((1 / ‖x‖ : ℝ) : 𝕜) • x, nr)

/-- The loop over the given vectors (iterativesolvers.h:112-121). -/
def initAll (rnd : Nat → E) (fuel : Nat) : List E → Nat → Option (List E × Nat)
  | [], nr => some ([], nr)
  | x :: xs, nr => (initVec (𝕜 := 𝕜) rnd fuel x nr).bind fun p => (initAll rnd fuel xs p.2).bind fun r => some (p.1 :: r.1, r.2)

/-- `x = c(0)*X[0]; for k in range1(n-1) x += c(k)*X[k]`. -/
def comb (c : Nat → 𝕜) (X : List E) (n : Nat) : Res E :=
  match X with
  | [] => .ub
  | x :: _ => Res.foldM (fun s k => match X[k]? with
      | none => .ub
      | some y => .ok (s + c k • y)) (c 0 • x) ((List.range (n - 1)).map (· + 1))

/-- Steps A and B (iterativesolvers.h:180-230): the value, the vector and the residual; `ii` is the number of the iteration. `D(t)` is not checked. -/
def ritz (diag : Nat → (Nat → Nat → 𝕜) → Eig 𝕜) (initEn : ℝ) (ii : Nat) (s : DSt 𝕜 E) : Res (DSt 𝕜 E × ℝ × E) :=
  if ii = 0 then
    match s.V, s.AV with
    | v :: _, av :: _ =>
      if s.t < s.eigs.length then
        .ok ({ s with eigs := s.eigs.set s.t (some initEn), M := fun i j => if i = 0 ∧ j = 0 then (initEn : 𝕜) else s.M i j }, initEn, av - (initEn : 𝕜) • v)
      else .throw
    | _, _ => .ub
  else
    let e := diag (ii + 1) fun i j => -s.M i j
    if s.t < s.eigs.length ∧ s.t < s.phi.length then
      if s.t < ii + 1 then
        let lam := -e.d s.t
        (comb (fun k => e.U k s.t) s.V (ii + 1)).bind fun x =>
        (comb (fun k => e.U k s.t) s.AV (ii + 1)).bind fun y =>
        let q := y + (-(lam : 𝕜)) • x
        let neg := RCLike.re (e.U 0 s.t) < 0
        .ok ({ s with eigs := s.eigs.set s.t (some lam), phi := s.phi.set s.t (if neg then -x else x), last := some (ii + 1, ⟨fun k => -e.d k, e.U⟩) },
          lam, if neg then -q else q)
      else .ub
    else .throw

/-- One Gram-Schmidt pass (iterativesolvers.h:299-307): all products first, then the subtractions. -/
def gsPass (𝕜 : Type*) {E : Type*} [RCLike 𝕜] [NormedAddCommGroup E] [InnerProductSpace 𝕜 E] (V : List E) (q : E) : E :=
  (V.map fun v => (inner 𝕜 v q, v)).foldl (fun s p => s + (-p.1) • p.2) q

/-- The orthogonalization (iterativesolvers.h:292-346); `tot` is `tot_pass` before the pass. `none`: `goto done`. Dividing by zero gives an undefined vector. -/
def orthog (rnd : Nat → E) (maxsize : Nat) (V : List E) : Nat → Nat → E → Nat → Res (Option E × Nat)
  | 0, _, _, nr => .ok (none, nr)
  | fuel + 1, tot, q, nr =>
    let q' := gsPass 𝕜 V q
    if ‖q'‖ < 1 / 10 ^ 10 then
      if V.length ≥ maxsize then .ok (none, nr + 1)
      else if tot + 1 > 3 then .ok (none, nr + 1)
      else if ‖rnd nr‖ = 0 then .ub
      else orthog rnd maxsize V fuel (tot + 1) (((1 / ‖rnd nr‖ : ℝ) : 𝕜) • rnd nr) (nr + 1)
    else .ok (some (((1 / ‖q'‖ : ℝ) : 𝕜) • q'), nr)

/-- Steps G and H (iterativesolvers.h:378-394): the new vector, its product and the new row and column. -/
def expand (A : E → E) (s : DSt 𝕜 E) (q : E) (nr : Nat) : DSt 𝕜 E :=
  let V := s.V ++ [q]
  let ni := s.V.length
  let col := fun k => inner 𝕜 (V.getD k 0) (A q)
  { s with V := V, AV := s.AV ++ [A q], nr := nr,
           M := fun i j => if i = ni then (starRingEnd 𝕜) (col j) else if j = ni then col i else s.M i j }

/-- The loop (iterativesolvers.h:170-398) from iteration `ii` on, `rem` being the number of iterations after this one. `orthog` makes at most four passes. -/
def davLoop (A : E → E) (diag : Nat → (Nat → Nat → 𝕜) → Eig 𝕜) (rnd : Nat → E) (o : DOpts) (maxsize nget : Nat) (initEn : ℝ) :
    Nat → Nat → DSt 𝕜 E → Res (DSt 𝕜 E)
  | rem, ii, s =>
    (ritz diag initEn ii s).bind fun r =>
    let s := r.1
    let lam := r.2.1
    let q := r.2.2
    let conv := (‖q‖ < o.errgoal ∧ |lam - s.lastLam| < o.errgoal) ∨ ‖q‖ < max (1 / 10 ^ 12) (o.errgoal * (1 / 1000))
    let s := { s with lastLam := lam }
    let fin := ‖q‖ < 1 / 10 ^ 20 ∨ (conv ∧ o.miniter ≤ ii) ∨ rem = 0
    if fin ∧ ¬(s.t + 1 < nget ∧ rem ≠ 0) then .ok s
    else
      let s := if fin then { s with t := s.t + 1, lastLam := 1000 } else s
      (orthog (𝕜 := 𝕜) rnd maxsize s.V 4 0 q s.nr).bind fun p =>
      match p.1, rem with
      | none, _ => .ok { s with nr := p.2 }
      | some q, rem + 1 => davLoop A diag rnd o maxsize nget initEn rem (ii + 1) (expand A s q p.2)
      | some q, 0 => .ok (expand A s q p.2)
  termination_by rem => rem

/-- The eigenvalues and vectors not yet computed (iterativesolvers.h:410-422); elements of `D` and `U` beyond the end are not checked. -/
def remaining (s : DSt 𝕜 E) : List Nat → Res (DSt 𝕜 E)
  | [] => .ok s
  | j :: js =>
    match s.last with
    | none => .ub
    | some (n, e) =>
      if j < n ∧ j < s.phi.length ∧ j < s.eigs.length then
        (comb (fun k => e.U k j) s.V n).bind fun x =>
        remaining { s with eigs := s.eigs.set j (some (e.d j)), phi := s.phi.set j x } js
      else .ub

/-- `davidson` (iterativesolvers.h:99-452): the values and vectors; `none` when normalizing the given vectors does not end with `fuel` random vectors. `maxsize` is
`A.size()`, `dimE` the dimension of the given vectors, `junk` what is in the matrix before it is set. -/
def davidson (A : E → E) (diag : Nat → (Nat → Nat → 𝕜) → Eig 𝕜) (rnd : Nat → E) (fuel : Nat) (o : DOpts) (maxsize dimE : Nat) (junk : Nat → Nat → 𝕜) (phi : List E) :
    Option (Res (List (Option ℝ) × List E)) :=
  if phi.length = 0 then some .throw
  else (initAll (𝕜 := 𝕜) rnd fuel phi 0).bind fun p =>
    let act := if maxsize = 0 then o.maxiter else min o.maxiter (maxsize - 1)
    some (
      if dimE ≠ maxsize then .throw
      else match p.1 with
        | [] => .throw
        | v :: _ =>
          let initEn := RCLike.re (inner 𝕜 v (A v))
          let nget := phi.length
          (davLoop A diag rnd o maxsize nget initEn act 0 ⟨[v], [A v], junk, p.1, List.replicate nget none, 0, 1000, none, p.2⟩).bind fun s =>
          (remaining s ((List.range (nget - (s.t + 1))).map (· + (s.t + 1)))).bind fun s => .ok (s.eigs, s.phi))

end Verif.Solvers
