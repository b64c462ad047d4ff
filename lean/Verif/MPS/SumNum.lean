import Verif.MPS.Orthogonalize

/-!
# Model of sums of states with truncation

`MPS::plusEq` (mps.cc:588-619), `MPO::plusEq` (mpo.cc:68-101), `sum` (mps.cc:1454-1502) and `addAssumeOrth` (mpsalgs.cc:99-137). States are as in
`DmrgNum` and `Orthogonalize`; an MPO has the pair of its site indices as site. The names of the indices, the change of the links by a prime level and
the operand which is the same object are in `Sum.lean` (C43). Numbers are exact, there are no quantum numbers, so that `ResultIsZero` is not thrown, and
no tensors on disk.
-/

noncomputable section

namespace Verif.SumNum

open Finset Verif.Limits Verif.Orthog
open Verif.ApplyMPO hiding rho envs envStep nextO maxAt sweep
open Verif.DmrgNum hiding Tools idM

variable {𝕜 : Type*} [RCLike 𝕜]

/-- The dimension of the new link. mpsalgs.cc:43-44 -/
def sumDim (l₁ l₂ : Nat) : Nat := if l₁ + l₂ = 0 then 1 else l₁ + l₂

/-- `first = delta(l1,sumind)`. mpsalgs.cc:47 -/
def first (a q : Nat) : 𝕜 := if a = q then 1 else 0

/-- The matrix `S` of `second`. mpsalgs.cc:48-53 -/
def second (l₁ a q : Nat) : 𝕜 := if q = l₁ + a then 1 else 0

/-- Product with a matrix on the link on the left; `l` is the dimension of that link. mpsalgs.cc:129-132 -/
def lmul (f : Nat → Nat → 𝕜) (l : Nat) (X : Nat → Nat → Nat → 𝕜) : Nat → Nat → Nat → 𝕜 := fun q s c => ∑ a ∈ range l, f a q * X a s c

/-- Product with a matrix on the link on the right. mpsalgs.cc:126, 129-130 -/
def rmul (g : Nat → Nat → 𝕜) (r : Nat) (X : Nat → Nat → Nat → 𝕜) : Nat → Nat → Nat → 𝕜 := fun a s q => ∑ c ∈ range r, X a s c * g c q

/-- The sum of two tensors. Elements outside of the dimension of the site are given as zero, as for `Orthog.Supp`; there are none in the code. -/
def plus (d : Nat) (X Y : Nat → Nat → Nat → 𝕜) : Nat → Nat → Nat → 𝕜 := fun a s b => if s < d then X a s b + Y a s b else 0

/-- The tensor given to `L.ref(i)`. mpsalgs.cc:126-132 -/
def siteSum (N : Nat) (i : Int) (A B : Site 𝕜) : Site 𝕜 :=
  if i = 1 then ⟨A.l, A.d, sumDim A.r B.r, plus A.d (rmul first A.r A.A) (rmul (second A.r) B.r B.A)⟩
  else if i = N then ⟨sumDim A.l B.l, A.d, A.r, plus A.d (lmul first A.l A.A) (lmul (second A.l) B.l B.A)⟩
  else ⟨sumDim A.l B.l, A.d, sumDim A.r B.r,
    plus A.d (rmul first A.r (lmul first A.l A.A)) (rmul (second A.r) B.r (lmul (second A.l) B.l B.A))⟩

/-- `addAssumeOrth(L,R,args)`. With one site `first.at(1)` is out of range. All tensors are written, so that both limits are at the ends.
mpsalgs.cc:99-137 -/
def addAssumeOrth (T : Tools 𝕜) (o : Opts) (L R : MPS (Site 𝕜)) : Res (MPS (Site 𝕜)) :=
  if R.N ≠ L.N then .throw
  else if L.N ≤ 1 then .throw
  else orthogonalize T o ⟨L.N, fun i => siteSum L.N i (L.t i) (R.t i), 0, L.N + 1⟩

/-- The arguments of `orthogonalize()`: the defaults. mps.cc:762-769 -/
def defaults : Opts := ⟨1 / 10 ^ 13, none, true, false⟩

/-- An operand is orthogonalized when it has no centre. The arguments of `plusEq` are not given to `orthogonalize`. mps.cc:593-611, mpo.cc:76-92 -/
def prepare (T : Tools 𝕜) (psi : MPS (Site 𝕜)) : Res (MPS (Site 𝕜)) := if isOrtho psi then .ok psi else orthogonalize T defaults psi

/-- `L.plusEq(R,args)`, and `sum(L,R,args)`. mps.cc:588-619, 1454-1462, mpo.cc:68-101 -/
def plusEq (T : Tools 𝕜) (o : Opts) (L R : MPS (Site 𝕜)) : Res (MPS (Site 𝕜)) :=
  (prepare T L).bind fun L => (prepare T R).bind fun R => addAssumeOrth T o L R

/-- The sums of pairs; with an odd number the last term is kept. mps.cc:1484-1491 -/
def pairs (T : Tools 𝕜) (o : Opts) : List (MPS (Site 𝕜)) → Res (List (MPS (Site 𝕜)))
  | a :: b :: l => (plusEq T o a b).bind fun c => (pairs T o l).bind fun l => .ok (c :: l)
  | l => .ok l

/-- `sum(terms,args)`; `fuel` bounds the recursion, and the number of terms is enough. Without terms the result is `MPS()`. mps.cc:1466-1500 -/
def sumAll (T : Tools 𝕜) (o : Opts) : Nat → List (MPS (Site 𝕜)) → Res (MPS (Site 𝕜))
  | _, [] => .ok ⟨0, fun _ => ⟨0, 0, 0, fun _ _ _ => 0⟩, 0, 0⟩
  | _, [a] => .ok a
  | _, [a, b] => plusEq T o a b
  | 0, _ => .ub
  | n + 1, l => (pairs T o l).bind (sumAll T o n)

/-- The length of a wavefunction. -/
def len (dd : Int → Nat) (N : Nat) (φ : (Int → Nat) → 𝕜) : ℝ := Real.sqrt (normSq dd N φ)

/-- The sum of the wavefunctions. -/
def total (N : Nat) (l : List (MPS (Site 𝕜))) (σ : Int → Nat) : 𝕜 := (l.map fun psi => wave psi.t N σ).sum

/-- An operand: the tensors fit, and when it is to be orthogonalized it is as in C76. -/
structure Operand (N : Nat) (dd : Int → Nat) (psi : MPS (Site 𝕜)) : Prop where
  len : psi.N = N
  chain : Chain N dd psi.t
  state : isOrtho psi = false → State psi

end Verif.SumNum
