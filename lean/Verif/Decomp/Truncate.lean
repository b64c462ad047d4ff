import Verif.Base
import Mathlib.Algebra.Order.Field.Basic
import Mathlib.Algebra.BigOperators.Group.List.Basic
import Mathlib.Tactic.Linarith
import Mathlib.Tactic.FieldSimp
import Mathlib.Tactic.Ring

/-!
# Model of `truncate` and of the block-wise selection in `svd` and `diagHermitian`

Sources: `/repo/itensor/decomp.cc` (truncate, lines 305-463), `/repo/itensor/svd.cc` (lines 240-315),
`/repo/itensor/hermitian.cc` (lines 255-345).

Numbers are an ordered field: rounding is not modelled.
-/

namespace Verif.Decomp

variable {K : Type*} [Field K] [LinearOrder K]

/-- `P(i)` for `0 ≤ i`; out of range is undefined in a release build. -/
def rd (P : List K) (i : Nat) : Res K :=
  match P[i]? with
  | some x => .ok x
  | none => .ub

/-- Sets negative values to zero from the front until a value that is not negative. -/
def zeroFront : List K → List K
  | [] => []
  | x :: l => if x ≥ 0 then x :: l else 0 :: zeroFront l

/-- "Zero out any negative weight" (decomp.cc:354-359): from the last value backwards. -/
def zeroNeg (P : List K) : List K := (zeroFront P.reverse).reverse

/-- Loop truncating to `maxdim` (decomp.cc:363-367). The counter is `k = n+1`, the number of values
kept; `P(-1)` is undefined. -/
def maxLoop (P : List K) (maxdim : Int) : Nat → K → Res (Nat × K)
  | 0, e => if 0 > maxdim then .ub else .ok (0, e)
  | k + 1, e => if (k : Int) ≥ maxdim then (rd P k).bind fun x => maxLoop P maxdim k (e + x) else .ok (k + 1, e)

/-- The two loops that discard below the cutoff (decomp.cc:373-376, 390-394), with `test truncerr P(n)`
for the comparison with the cutoff, which is evaluated before `n >= mindim`. -/
def cutLoop (P : List K) (test : K → K → Bool) (mindim : Int) : Nat → K → Res (Nat × K)
  | 0, _ => .ub
  | k + 1, e => (rd P k).bind fun x =>
    if test e x && decide ((k : Int) ≥ mindim) then cutLoop P test mindim k (e + x) else .ok (k + 1, e)

/-- `ndegen_below` (decomp.cc:414-422): counts from `d` on while `P(n-d)` is within the tolerance.
The count stops at `n-d < 0`; the guard `n > 0` makes no difference. -/
def degenBelow (P : List K) (v tol : K) : Nat → Nat → Res Nat
  | 0, d => .ok d
  | j + 1, d => (rd P j).bind fun x => if |x - v| < tol then degenBelow P v tol j (d + 1) else .ok d

/-- `ndegen_above` (decomp.cc:424-432), over the values after `P(n)`. -/
def degenAbove (v tol : K) : List K → Nat
  | [] => 0
  | x :: l => if |x - v| < tol then degenAbove v tol l + 1 else 0

/-- Result of `truncate`: the vector and the returned tuple. -/
structure Out (K : Type*) where
  P : List K
  truncerr : K
  lower : K
  upper : K
  ndegen : Nat
  deriving DecidableEq

/-- Options of `truncate` (decomp.cc:307-315). -/
structure Opts (K : Type*) where
  maxdim : Int
  mindim : Int
  cutoff : K
  absolute : Bool
  rel : Bool
  respect : Bool

/-- Number of values kept and error, before the degeneracy treatment (decomp.cc:361-402). `Q` and
`cutoff` are already normalized. -/
def cut (o : Opts K) (Q : List K) (cutoff : K) : Res (Nat × K) :=
  (maxLoop Q o.maxdim Q.length 0).bind fun ke =>
    if o.absolute then
      (cutLoop Q (fun _ x => decide (x ≤ cutoff)) o.mindim ke.1 ke.2).bind fun ke => .ok (max ke.1 1, ke.2)
    else
      let scale := if o.rel then (if Q.sum = 0 then 1 else Q.sum) else 1
      (cutLoop Q (fun e x => decide (e + x ≤ cutoff * scale)) o.mindim ke.1 ke.2).bind fun ke =>
        .ok (max ke.1 1, if scale = 0 then 0 else ke.2 / scale)

/-- `truncate` (decomp.cc:306-463). `eps` is `REAL_EPSILON`. -/
def truncate (eps : K) (o : Opts K) (P : List K) : Res (Out K) :=
  match P with
  | [] => .ub
  | [p] => if p = 0 then .ok ⟨[p], 0, -eps, eps, 1⟩ else .ok ⟨[p], 0, p - p / 1000, p + p / 1000, 1⟩
  | p :: p' :: l =>
    if p = 0 then .ok ⟨[p], 0, -eps, eps, 1⟩
    else
      let Q := zeroNeg ((p :: p' :: l).map (· / p))
      let cutoff := if o.absolute || !o.rel then o.cutoff / p else o.cutoff
      (cut o Q cutoff).bind fun ke =>
        let m := ke.1
        (rd Q (m - 1)).bind fun v =>
          let tol := if v = 0 then eps else v / 1000
          (degenBelow Q v tol (m - 1) 1).bind fun below =>
            let above := degenAbove v tol (Q.drop m)
            let fin := if o.respect && decide (below + above > 1) then
                if o.maxdim < (m + above : Nat) then (m - below, 0) else (m + above, below + above)
              else (m, below)
            .ok ⟨(Q.take fin.1).map (· * p), ke.2 * p, (v - tol) * p, (v + tol) * p, fin.2⟩

/-- First selection loop for one block (svd.cc:275-282, hermitian.cc:290-296): how many more values are
kept, `total` being the number kept so far. -/
def selUpper (m : Nat) (upper : K) : List K → Nat → Nat
  | [], _ => 0
  | x :: l, total => if total < m ∧ x > upper then selUpper m upper l (total + 1) + 1 else 0

/-- Second selection loop (svd.cc:285-294, hermitian.cc:299-307). -/
def selDegen (m : Nat) (lower : K) : List K → Nat → Nat → Nat
  | [], _, _ => 0
  | x :: l, total, nd => if nd > 0 ∧ total < m ∧ x > lower then selDegen m lower l (total + 1) (nd - 1) + 1 else 0

/-- The loop over the blocks (svd.cc:265-315, hermitian.cc:278-325): the number of values kept in each
block. A block is its list of weights: eigenvalues for `diagHermitian`, squares of the singular
values for `svd`. -/
def select (m : Nat) (lower upper : K) : List (List K) → Nat → Nat → List Nat
  | [], _, _ => []
  | d :: ds, total, nd =>
    let a := selUpper m upper d total
    let b := selDegen m lower (d.drop a) (total + a) nd
    (a + b) :: select m lower upper ds (total + a + b) (nd - b)

end Verif.Decomp
