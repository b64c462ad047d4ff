import Verif.Solvers.Davidson
import Mathlib.LinearAlgebra.Dimension.Finrank

/-!
# Model of the Arnoldi eigensolver

`findEig` and `arnoldi` (iterativesolvers.h:671-935). Vectors are elements of a complex inner product space `E`, so numbers are exact; `A.product` is a function
`A : E → E`, and the dimension of the tensors, `dim(phi.front().inds())`, is the dimension of `E`. `eigen` of a small matrix is a parameter; `randomize` gives
the vectors `rnd 0`, `rnd 1`, … of an arbitrary sequence. `Error` ends the program and is the outcome `throw`. Output is left out.
-/

noncomputable section

namespace Verif.Arnoldi

open scoped BigOperators

variable {E : Type*} [NormedAddCommGroup E] [InnerProductSpace ℂ E]

/-- What `eigen(M,Vr,Vi,dr,di)` returns (algs.h:53-69, algs_impl.h:148-170): the values `D` and the vectors, `Y k t` being component `k` of number `t`; real and imaginary parts are
put together. -/
structure CEig where
  D : Nat → ℂ
  Y : Nat → Nat → ℂ

/-- The option `WhichEig` (iterativesolvers.h:718). -/
inductive Which where
  | largestMagnitude
  | smallestReal
  | other
  deriving DecidableEq

/-- The options (iterativesolvers.h:716-726) as given; `Npass` is `extra + 1` (with `Npass` less than one the code computes with not-a-number, which is not
modelled). -/
structure Opts where
  maxiter : Int
  maxrestart : Int
  which : Which
  errgoal : ℝ
  extra : Nat

/-- The comparison with the value found so far (iterativesolvers.h:686 and :700). -/
def better (w : Which) (x y : ℂ) : Prop :=
  match w with
  | .largestMagnitude => ‖y‖ < ‖x‖
  | .smallestReal => x.re < y.re
  | .other => False

open Classical in
/-- `findEig` (iterativesolvers.h:671-711) for the values `d 0`, …, `d i`. -/
def findEig (w : Which) (d : Nat → ℂ) : Nat → Res Nat
  | 0 => if w = .other then .throw else .ok 0
  | i + 1 => (findEig w d i).bind fun n => if w = .other then .throw else if better w (d (i + 1)) (d n) then .ok (i + 1) else .ok n

/-- `A.product` and the removal of the pairs found before (iterativesolvers.h:802-810). -/
def deflate (A : E → E) (prev : List (ℂ × E)) (x : E) : E :=
  prev.foldl (fun s p => s + (-p.1 * inner ℂ p.2 x) • p.2) (A x)

/-- The loop over `i` in one Gram-Schmidt pass (iterativesolvers.h:817-828): the new vector and the overlaps. -/
def gs : List E → E → E × List ℂ
  | [], q => (q, [])
  | v :: vs, q =>
    let h := inner ℂ v q
    let r := gs vs (q - h • v)
    (r.1, h :: r.2)

open Classical in
/-- Division by the norm, or a random vector (iterativesolvers.h:832-833 and :922-926). -/
def unitOr (rnd : Nat → E) (q : E) (nr : Nat) : E × Nat :=
  if ‖q‖ ≠ 0 then (((1 / ‖q‖ : ℝ) : ℂ) • q, nr) else (rnd nr, nr + 1)

/-- The passes after the first (iterativesolvers.h:815-834). -/
def morePasses (rnd : Nat → E) (V : List E) : Nat → E × Nat → E × Nat
  | 0, p => p
  | n + 1, p => morePasses rnd V n (unitOr rnd (gs V p.1).1 p.2)

/-- The variables of the loop over `it`: `V` holds the entries which have been set, `H` is `HR + i HI`, `nr` counts random vectors. -/
structure ASt (E : Type*) where
  V : List E
  H : Nat → Nat → ℂ
  nr : Nat

/-- What one iteration leaves: the variables, `eigs.at(w)`, `err` and the column `n` of `Y`. -/
structure AIt (E : Type*) where
  st : ASt E
  lam : ℂ
  err : ℝ
  y : Nat → ℂ

/-- The overlaps of the first pass are put in column `j` (iterativesolvers.h:822-826). -/
def setCol (H : Nat → Nat → ℂ) (j : Nat) (h : List ℂ) : Nat → Nat → ℂ :=
  fun a b => if b = j ∧ a ≤ j then h.getD a 0 else H a b

/-- Iteration `j` (iterativesolvers.h:798-866) for the operator `B`, the product with the earlier pairs removed. The matrix which is diagonalized consists of
the first `j + 1` rows and columns of `H`; `HR(1+j,j) = nh` comes after it. -/
def step (B : E → E) (eigen : Nat → (Nat → Nat → ℂ) → CEig) (rnd : Nat → E) (o : Opts) (j : Nat) (s : ASt E) : Res (AIt E) :=
  match s.V[j]? with
  | none => .ub
  | some v =>
    let g := gs s.V (B v)
    let nh := ‖g.1‖
    let u := morePasses rnd s.V o.extra (unitOr rnd g.1 s.nr)
    let H := setCol s.H j g.2
    let e := eigen (j + 1) H
    (findEig o.which e.D j).bind fun n =>
    .ok { st := { V := s.V ++ [u.1], H := fun a b => if a = j + 1 ∧ b = j then (nh : ℂ) else H a b, nr := u.2 },
          lam := e.D n, err := nh * ‖e.Y j n‖, y := fun k => e.Y k n }

open Classical in
/-- The loop over `it` (iterativesolvers.h:798-896) from iteration `j` on, `rem` being the number of iterations after this one. The result includes `niter`. -/
def iterate (B : E → E) (eigen : Nat → (Nat → Nat → ℂ) → CEig) (rnd : Nat → E) (o : Opts) : Nat → Nat → ASt E → Res (AIt E × Nat)
  | 0, j, s => (step B eigen rnd o j s).bind fun r => .ok (r, j + 1)
  | rem + 1, j, s => (step B eigen rnd o j s).bind fun r => if r.err < o.errgoal then .ok (r, j + 1) else iterate B eigen rnd o rem (j + 1) r.st

open Classical in
/-- The loop over `r` (iterativesolvers.h:783-932), `rem` being the number of restarts left; `last` is `actual_maxiter`. The matrix `H` is kept from one run to
the next. The sum of the vectors (iterativesolvers.h:906-912) is the same loop as in `davidson`. The result is the value, the vector, `H` and the number of random vectors used. -/
def restarts (B : E → E) (eigen : Nat → (Nat → Nat → ℂ) → CEig) (rnd : Nat → E) (o : Opts) (last : Nat) :
    Nat → E → (Nat → Nat → ℂ) → Nat → Res ((ℂ × E) × (Nat → Nat → ℂ) × Nat)
  | rem, phi, H, nr =>
    (iterate B eigen rnd o last 0 ⟨[phi], H, nr⟩).bind fun r =>
    (Solvers.comb r.1.y r.1.st.V r.2).bind fun x =>
    let u := unitOr rnd x r.1.st.nr
    if r.1.err < o.errgoal then .ok ((r.1.lam, u.1), r.1.st.H, u.2)
    else match rem with
      | 0 => .ok ((r.1.lam, u.1), r.1.st.H, u.2)
      | rem + 1 => restarts B eigen rnd o last rem u.1 r.1.st.H u.2
  termination_by rem => rem

/-- The loop over `w` (iterativesolvers.h:780-934); `prev` holds the pairs found so far. -/
def solveAll (A : E → E) (eigen : Nat → (Nat → Nat → ℂ) → CEig) (rnd : Nat → E) (o : Opts) (last rem : Nat) :
    List E → List (ℂ × E) → (Nat → Nat → ℂ) → Nat → Res (List (ℂ × E))
  | [], prev, _, _ => .ok prev
  | x :: xs, prev, H, nr =>
    (restarts (deflate A prev) eigen rnd o last rem x H nr).bind fun r =>
    solveAll A eigen rnd o last rem xs (prev ++ [r.1]) r.2.1 r.2.2

open Classical in
/-- `arnoldi` (iterativesolvers.h:712-935): the pairs of a value and a vector. `size` is `A.size()`; it is at least one, as the dimension of the vectors of
`A`. For `size` one only the first value is set (iterativesolvers.h:750-759) and there is no other. -/
def arnoldi (A : E → E) (size : Nat) (eigen : Nat → (Nat → Nat → ℂ) → CEig) (rnd : Nat → E) (o : Opts) (phi : List E) : Res (List (ℂ × E)) :=
  let maxiter := if o.maxiter < 1 then 1 else o.maxiter
  let maxrestart := if o.maxrestart < 0 then 0 else o.maxrestart
  if phi = [] then .throw
  else if ∃ x ∈ phi, ‖x‖ = 0 then .throw
  else
    let phi := phi.map fun x => ((1 / ‖x‖ : ℝ) : ℂ) • x
    if size < phi.length then .throw
    else if size = 1 then
      match phi with
      | [] => .ub
      | x :: _ =>
        let x := ((1 / ‖x‖ : ℝ) : ℂ) • x
        .ok [(inner ℂ (A x) x, x)]
    else
      let last := (min maxiter ((size : Int) - 1)).toNat
      if Module.finrank ℂ E ≠ size then .throw
      else solveAll A eigen rnd o last maxrestart.toNat phi [] (fun _ _ => 0) 0

end Verif.Arnoldi
