import Verif.MPS.Sweeps
import Mathlib.Algebra.Group.Defs
import Mathlib.Tactic.Ring
import Mathlib.Tactic.Linarith

/-!
# The orthogonality limits of a matrix product state

The functions of `MPS` that keep `l_orth_lim_` and `r_orth_lim_` (mps.cc, mps_impl.h). Tensors are of an arbitrary type; the
factorizations are given by their specification (`Factor`). Tags and writing to disk are left out here.
-/

namespace Verif.Limits

/-- An `MPS` of `N` sites: the tensors `A_[0..N+1]`, and the two limits. mps.h:28-40 -/
structure MPS (T : Type*) where
  N : Nat
  t : Int → T
  l : Int
  r : Int

/-- The two directions of a factorization. -/
inductive Dir | left | right
deriving DecidableEq

/-- The factorization in `orthMPS`: `link a b` says that `commonIndex(a,b)` exists; `orthL a b` are the tensors `A` and `(D*B)*b` where
`a = A*D*B` (`Fromleft`), `orthR a b` those of the other direction. mps.cc:641-664 -/
structure Ops (T : Type*) where
  link : T → T → Bool
  orthL : T → T → T × T
  orthR : T → T → T × T

variable {T : Type*}

/-- Two tensors are replaced. -/
def set2 (s : MPS T) (b : Int) (p : T × T) : MPS T := { s with t := Function.update (Function.update s.t b p.1) (b + 1) p.2 }

/-- `orthMPS(ref(b),ref(b+1),dir)` as far as the tensors go: nothing is done when they have no index in common. mps.cc:641-664 -/
def orthMPS (o : Ops T) (s : MPS T) (b : Int) (d : Dir) : MPS T :=
  if o.link (s.t b) (s.t (b + 1)) then
    set2 s b (match d with
      | .left => o.orthL (s.t b) (s.t (b + 1))
      | .right => o.orthR (s.t b) (s.t (b + 1)))
  else s

/-- `ref(i)` (mps.cc:303-311): the site is taken to be modified. `at` throws outside of `0..N+1`. -/
def ref (s : MPS T) (i : Int) : Res (MPS T) :=
  let i := if i < 0 then s.N + i + 1 else i
  if 0 ≤ i ∧ i < s.N + 2 then
    .ok { s with l := if i ≤ s.l then i - 1 else s.l, r := if i ≥ s.r then i + 1 else s.r }
  else .throw

/-- `set(i,x)` (mps.h:93-97). -/
def set (s : MPS T) (i : Int) (x : T) : Res (MPS T) :=
  (ref s i).bind fun s => .ok { s with t := Function.update s.t (if i < 0 then s.N + i + 1 else i) x }

/-- `operator*=(MPS,Real)` and the others (mps.cc:173-192), where `f` is what is done to the tensor. -/
def scale (s : MPS T) (f : T → T) : Res (MPS T) :=
  (ref s (s.l + 1)).bind fun s' => .ok { s' with t := Function.update s'.t (s.l + 1) (f (s'.t (s.l + 1))) }

/-- One round of the first loop of `position` (mps.cc:694-709). The two calls of `ref` are not ordered; the result is the same
in both orders. -/
def stepL (o : Ops T) (s : MPS T) : Res (MPS T) :=
  let s := { s with l := if s.l < 0 then 0 else s.l }
  let b := s.l + 1
  (ref s b).bind fun s1 => (ref s1 (b + 1)).bind fun s1 =>
    let s1 := orthMPS o s1 b .left
    .ok { s1 with l := s1.l + 1, r := if s1.r < s1.l + 1 + 2 then s1.l + 1 + 2 else s1.r }

/-- One round of the second loop of `position` (mps.cc:710-732). -/
def stepR (o : Ops T) (s : MPS T) : Res (MPS T) :=
  let s := { s with r := if s.r > s.N + 1 then s.N + 1 else s.r }
  let b := s.r - 2
  (ref s b).bind fun s1 => (ref s1 (b + 1)).bind fun s1 =>
    let s1 := orthMPS o s1 b .right
    .ok { s1 with r := s1.r - 1, l := if s1.l > s1.r - 1 - 2 then s1.r - 1 - 2 else s1.l }

/-- `while(l_orth_lim_ < i-1)`; the first argument bounds the rounds, each of which raises the limit. mps.cc:694 -/
def loopL (step : MPS T → Res (MPS T)) (i : Int) : Nat → MPS T → Res (MPS T)
  | 0, s => .ok s
  | n + 1, s => if s.l < i - 1 then (step s).bind (loopL step i n) else .ok s

/-- `while(r_orth_lim_ > i+1)`. mps.cc:710 -/
def loopR (step : MPS T → Res (MPS T)) (i : Int) : Nat → MPS T → Res (MPS T)
  | 0, s => .ok s
  | n + 1, s => if s.r > i + 1 then (step s).bind (loopR step i n) else .ok s

/-- `position(i)` (mps.cc:667-735), with given rounds. -/
def positionWith (sL sR : MPS T → Res (MPS T)) (s : MPS T) (i : Int) : Res (MPS T) :=
  (loopL sL i (i - 1 - s.l).toNat s).bind fun s => loopR sR i (s.r - (i + 1)).toNat s

/-- `position(i)` by `orthMPS`. mps.cc:692-733 -/
def position (o : Ops T) (s : MPS T) (i : Int) : Res (MPS T) := positionWith (stepL o) (stepR o) s i

/-- `svdBond(b,AA,dir)` (mps_impl.h:20-99) where `p` are the two tensors it factorizes `AA` into. `A_[b]` and `A_[b+1]` are accessed
without a check. -/
def svdBond (s : MPS T) (b : Int) (p : T × T) (d : Dir) : Res (MPS T) :=
  if d = .left ∧ b - 1 > s.l then .throw
  else if d = .right ∧ b + 2 < s.r then .throw
  else if ¬ (0 ≤ b ∧ b + 1 < s.N + 2) then .ub
  else
    match d with
    | .left => .ok { set2 s b p with l := b, r := if s.r < b + 2 then b + 2 else s.r }
    | .right => .ok { set2 s b p with l := if s.l > b - 1 then b - 1 else s.l, r := b + 1 }

/-- A round of the first loop of `position` with `DoSVDBond`; `f a b` is what `svdBond` makes of the product `a*b`. mps.cc:675-682 -/
def svdStepL (f : T → T → T × T) (s : MPS T) : Res (MPS T) :=
  let s := { s with l := if s.l < 0 then 0 else s.l }
  svdBond s (s.l + 1) (f (s.t (s.l + 1)) (s.t (s.l + 2))) .left

/-- A round of the second loop. mps.cc:683-690 -/
def svdStepR (f : T → T → T × T) (s : MPS T) : Res (MPS T) :=
  let s := { s with r := if s.r > s.N + 1 then s.N + 1 else s.r }
  svdBond s (s.r - 2) (f (s.t (s.r - 2)) (s.t (s.r - 1))) .right

/-- `position(i,{"DoSVDBond",true})`. mps.cc:673-691 -/
def positionSVD (o : Ops T) (s : MPS T) (i : Int) : Res (MPS T) := positionWith (svdStepL o.orthL) (svdStepR o.orthR) s i

/-- `orthogonalize` (mps.cc:738-814) as far as the limits go: `x` are the new tensors. On one site it multiplies with a default
constructed tensor, which is an error. -/
def orthogonalize (s : MPS T) (x : Int → T) : Res (MPS T) :=
  if s.N < 2 then .throw else .ok { s with t := fun i => if 1 ≤ i ∧ i ≤ s.N then x i else s.t i, l := 0, r := 2 }

/-- `isOrtho` (mps.cc:1023-1027). -/
def isOrtho (s : MPS T) : Bool := s.l + 1 = s.r - 1

/-- `orthoCenter` (mps.cc:1029-1034). -/
def orthoCenter (s : MPS T) : Res Int := if isOrtho s then .ok (s.l + 1) else .throw

end Verif.Limits
