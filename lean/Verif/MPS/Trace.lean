import Verif.MPS.InnerEx
import Verif.Net.Mixed

/-!
# Model of the trace of matrix product operators

Source: `/repo/itensor/mps/mpo.cc` (`traceC`), `/repo/itensor/mps/mps.cc` (`siteInds`), `/repo/itensor/itensor.cc` (`delta`).
The same simplifications as in `MPS/Inner.lean`: tensors are dense, without quantum numbers.
-/

namespace Verif.MPS

open Verif.Tensor Verif.Index Verif.Index.IndexSet Verif.Net

/-- `minDim` (indexset.cc:462-471). -/
def minDim : IndexSet → Nat
  | [] => 1
  | i :: is => is.foldl (fun m j => min m j.dim) i.dim

section
variable {K : Type*} [CommRing K] [DecidableEq K]

/-- A dense ITensor with its storage size. -/
def DTensor.it (T : DTensor K) : IT K := .dense ⟨T.is, (T.is.map (·.dim)).prod, T.store⟩

/-- `delta(is)` (itensor.cc:1593-1603). -/
def deltaOf (is : IndexSet) : IT K := .diag ⟨is, [], 1, minDim is⟩

/-- `A(n) * delta(dag(siteInds(A,n)))` (mpo.cc:536, 541; `siteInds` mps.cc:1213-1218); `prev` and `next` are the indices of
the neighbours. -/
def trSite (fuel : Nat) (junk fresh : Int → K) (prev next : IndexSet) (T : DTensor K) : Run (IT K) :=
  (DTensor.it T).mulEq fuel junk fresh (deltaOf ((uniqueIndsL T.is [prev, next]).map (·.dag)))

/-- The loop of `traceC` (mpo.cc:539-543). -/
def traceLoop (fuel : Nat) (junk fresh : Int → K) (prev : IndexSet) (L : IT K) : List (DTensor K) → Run (IT K)
  | [] => some (.ok L)
  | T :: Ts => Run.bind (trSite fuel junk fresh prev (headInds Ts) T) fun M => Run.bind (L.mulEq fuel junk fresh M) fun L' =>
      traceLoop fuel junk fresh T.is L' Ts

/-- `eltC` (itensor.cc:83-110). -/
def eltIT (T : IT K) : Res K := if T.is.length ≠ 0 then .throw else T.getElt []

/-- `traceC(MPO)` (mpo.cc:532-545). No site: the default constructed tensor `A_[1]` in the product is an error. -/
def traceC (fuel : Nat) (junk fresh : Int → K) : List (DTensor K) → Run K
  | [] => some .throw
  | T :: Ts => Run.bind (trSite fuel junk fresh [] (headInds Ts) T) fun L => Run.bind (traceLoop fuel junk fresh T.is L Ts) fun L' =>
      some (eltIT L')

/-- `Bp` in `traceC(MPO,MPO)` (mpo.cc:575-578). -/
def matchedB (newid : Key → Nat) (A B : List (DTensor K)) : Res (List (DTensor K)) :=
  (siteIndsFrom [] A (B.map (·.is))).bind fun sA => (siteIndsFrom [] B (A.map (·.is))).bind fun sB =>
    (replaceSiteIndsMPO B sB sA).bind fun Bp => freshLinks newid Bp

/-- `traceC(MPO,MPO)` (mpo.cc:566-585). -/
def traceAB (fuel : Nat) (junk fresh : Int → K) (newid : Key → Nat) (A B : List (DTensor K)) : Run K :=
  if A.length ≠ B.length then some .throw
  else match matchedB newid A B with
    | .ok Bp => sandwich fuel junk fresh ((A.zip Bp).map fun q => [q.1, q.2])
    | .throw => some .throw
    | .ub => some .ub

end

end Verif.MPS
