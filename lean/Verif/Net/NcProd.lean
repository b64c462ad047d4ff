import Verif.Net.Mixed

/-!
# The product without contraction

Sources: `/repo/itensor/itensor.cc` (`operator/=(ITensor)`), `/repo/itensor/itdata/dense.cc` (`NCProd`), `/repo/itensor/indexset_impl.h` (`ncprod`),
`/repo/itensor/tensor/contract_impl.h` (`ncprod_impl`).
-/

namespace Verif.Net

open Verif.Tensor Verif.Tensor.Range Verif.Index Verif.Index.IndexSet Finset

variable {K : Type*} [CommRing K]

/-- `ncprod(Lis,Lind,Ris,Rind,Nis,Nind)` (indexset_impl.h:153-196): the indices of the result with their labels, the common ones first. -/
def ncIS (L R : IndexSet) (Ll Rl : List Int) : List (Index × Int) :=
  (L.zip Ll).filter (fun p => p.2 < 0) ++ (L.zip Ll).filter (fun p => p.2 > 0) ++ (R.zip Rl).filter fun p => p.2 > 0

/-- The loop over the labels of `A` (contract_impl.h:82-89, 90-97): the pointer at the first position with the label `c` is set to `cb[nc]`. -/
def setPtr (al : List Int) (c : Int) (nc : Nat) (p : List (Option Nat)) : List (Option Nat) :=
  match al.findIdx? (· == c) with
  | some na => p.set na (some nc)
  | none => p

/-- The loops that set the pointers of a `PtrInd` (contract_impl.h:80-99), `p` being the pointers: `some nc` points to `cb[nc]`, `none` is the null pointer. `nc` is the
position of the first of the labels left. -/
def wire (al : List Int) : List Int → Nat → List (Option Nat) → List (Option Nat)
  | [], _, p => p
  | c :: cl, nc, p => wire al cl (nc + 1) (setPtr al c nc p)

/-- `PtrInd::operator[]` for all positions (contract_impl.h:50-54). -/
def deref (ind : List Nat) : List (Option Nat) → Res (List Nat)
  | [] => .ok []
  | none :: _ => .ub
  | some n :: p =>
    match ind[n]? with
    | some x => (deref ind p).bind fun r => .ok (x :: r)
    | none => .ub

/-- `pa[offset(A,aind)]` for an array of `n` elements. -/
def readAt (R : Range) (n : Nat) (m : Int → K) (p : List (Option Nat)) (ind : List Nat) : Res K :=
  (deref ind p).bind fun i => (offset 0 R i).bind fun o => if 0 ≤ o ∧ o < n then .ok (m o) else .ub

/-- The loop over the elements of `C` (contract_impl.h:101-107). -/
def ncLoop (Ra : Range) (nA : Nat) (A : Int → K) (pa : List (Option Nat)) (Rb : Range) (nB : Nat) (B : Int → K) (pb : List (Option Nat)) (nC : Nat) :
    List RIter → (Int → K) → Res (Int → K)
  | [], m => .ok m
  | s :: l, m => (readAt Ra nA A pa s.ind).bind fun a => (readAt Rb nB B pb s.ind).bind fun b =>
    if 0 ≤ s.off ∧ s.off < nC then ncLoop Ra nA A pa Rb nB B pb nC l (Function.update m s.off (a * b)) else .ub

/-- `ncprod_impl` (contract_impl.h:61-107). -/
def ncprodImpl (fuel : Nat) (Ra : Range) (nA : Nat) (A : Int → K) (al : List Int) (Rb : Range) (nB : Nat) (B : Int → K) (bl : List Int) (Rc : Range) (nC : Nat)
    (C : Int → K) (cl : List Int) : Run (Int → K) :=
  Run.bind (RIter.forEach 0 Rc fuel (RIter.begin 0 Rc)) fun l =>
    some (ncLoop Ra nA A (wire al cl 0 (List.replicate al.length none)) Rb nB B (wire bl cl 0 (List.replicate bl.length none)) nC l C)

/-- `doTask(NCProd&,Dense,Dense)` (dense.cc:332-356); the new storage is zero. -/
def ncDense (fuel : Nat) (L R : DS K) : Run (DS K) :=
  let c := computeLabels L.is R.is
  let N := ncIS L.is R.is c.1 c.2.1
  let ds := (N.map (·.1)).map (·.dim)
  Run.bind (ncprodImpl fuel (init (L.is.map (·.dim))) L.size L.mem c.1 (init (R.is.map (·.dim))) R.size R.mem c.2.1 (init ds) ds.prod (fun _ => 0) (N.map (·.2))) fun m =>
    some (.ok ⟨N.map (·.1), ds.prod, m⟩)

/-- `operator/=(ITensor)` (itensor.cc:1040-1066) without quantum numbers; `none` is a default constructed ITensor. There is no task for diagonal storage, which is an
error (`doTask` without an overload). -/
def divEq (fuel : Nat) (L R : Option (IT K)) : Run (IT K) :=
  match L, R with
  | some (.dense l), some (.dense r) => Run.bind (ncDense fuel l r) fun n => some (.ok (.dense n))
  | _, _ => some .throw

end Verif.Net
