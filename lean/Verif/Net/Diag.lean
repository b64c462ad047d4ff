import Verif.Net.ITensor
import Verif.Tensor.RangeProps

/-!
# Products with diagonal ITensors

Sources: `/repo/itensor/itdata/diag.h`, `/repo/itensor/itdata/diag.cc`, `contractDiagPartial` and
`contractDiagFull` of `/repo/itensor/tensor/contract.h`.

As in `Net/ITensor.lean`, elements are from a commutative ring, and there are no quantum numbers (diagonal
storage with quantum numbers, `QDiag`, is not modelled). Storage carries its length, and an access
outside of it is undefined behaviour.
-/

namespace Verif.Net

open Verif.Tensor Verif.Tensor.Range Verif.Index Verif.Index.IndexSet Finset

variable {K : Type*} [CommRing K] [DecidableEq K]

/-- A `Diag` storage (diag.h:33-45) with the indices of its ITensor; `store` empty is the case `allSame`
(diag.h:81). -/
structure DG (K : Type*) where
  is : IndexSet
  store : List K
  val : K
  length : Nat

/-- `Dense` storage (dense.h:30-70) with its size, and the indices of its ITensor. -/
structure DS (K : Type*) where
  is : IndexSet
  size : Nat
  mem : Int → K

/-- An ITensor with either storage. -/
inductive IT (K : Type*) where
  | dense (t : DS K)
  | diag (d : DG K)

namespace DG

/-- What the loops of the contraction read as `A(J)`: `UnifVecWrapper` (diag.cc:29-43) when all are the same,
otherwise a reference to the stored elements (diag.cc:78,118). -/
def at' (d : DG K) (J : Nat) : K := if d.store.isEmpty then d.val else d.store.getD J 0

/-- `range(A)` (diag.cc:72,78,112,118). -/
def size (d : DG K) : Nat := if d.store.isEmpty then d.length else d.store.length

/-- `doTask(GetElt,Diag)` (diag.cc:14-26); `at` throws beyond the end. -/
def getElt (d : DG K) (inds : List Nat) : Res K :=
  let first := inds.headD 0
  if inds.any (· != first) then .ok 0
  else if d.store.isEmpty then .ok d.val
  else match d.store[first]? with
    | some x => .ok x
    | none => .throw

end DG

/-- `doTask(GetElt,Dense)` (dense.cc:36-46): `operator[]` does not check. -/
def DS.getElt (t : DS K) (inds : List Nat) : Res K :=
  let o := rank (t.is.map (·.dim)) inds
  if o < t.size then .ok (t.mem o) else .ub

/-- `doTask(GetElt,·)`. -/
def IT.getElt : IT K → List Nat → Res K
  | .dense t, i => t.getElt i
  | .diag d, i => d.getElt i

def IT.is : IT K → IndexSet
  | .dense t => t.is
  | .diag d => d.is

/-- `pc[c] += a*pb[b]` for the triples `(c,b,a)` in order; `nB` and `nC` are the lengths of the two arrays. -/
def runSteps (nB nC : Nat) (B : Int → K) : List (Int × Int × K) → (Int → K) → Res (Int → K)
  | [], m => .ok m
  | (c, b, a) :: l, m =>
    if 0 ≤ c ∧ c < nC ∧ 0 ≤ b ∧ b < nB then runSteps nB nC B l (Function.update m c (m c + a * B b)) else .ub

/-- `boffset += ii*bustride[i]` over `i` (contract.h:288-293). -/
def dot (i : List Int) (s : List Nat) : Int := (List.zipWith (fun (a : Int) (b : Nat) => a * b) i s).sum

/-- `contractDiagPartial` (contract.h:229-300) with `astarts` empty. `al`, `bl`, `cl` are the labels. An index of `B` which is labelled
as uncontracted is written to position `n` of arrays of length `nbu` and looked up in `cl` without a check in release
builds; when the counts differ or the label is missing the model says undefined behaviour. -/
def contractDiagPartial (fuel : Nat) (nA : Nat) (A : Nat → K) (al : List Int) (Rb : Range) (nB : Nat) (B : Int → K)
    (bl : List Int) (Rc : Range) (nC : Nat) (C : Int → K) (cl : List Int) : Run (Int → K) :=
  let bz := Rb.zip bl
  let cz := Rc.zip cl
  let bcs := ((bz.filter fun p => findIndex al p.2 ≥ 0).map (·.1.str)).sum
  let nbu := (bz.filter fun p => findIndex al p.2 < 0).length
  let ccs := ((cz.filter fun p => findIndex al p.2 ≥ 0).map (·.1.str)).sum
  let unc := bz.filter fun p => p.2 > 0
  if unc.length ≠ nbu ∨ unc.any (fun p => findIndex cl p.2 < 0) then some .ub
  else
    let bus := unc.map (·.1.str)
    let cus := unc.map fun p => (Rc.getD (findIndex cl p.2).toNat ⟨0, 0⟩).str
    Run.bind (GCounter.forEach fuel (GCounter.ofExtents (unc.map (·.1.ind)))) fun gs =>
      some (runSteps nB nC B (gs.flatMap fun g => (List.range nA).map fun (J : Nat) =>
        (((J * ccs : Nat) : Int) + dot g.i cus, ((J * bcs : Nat) : Int) + dot g.i bus, A J)) C)

/-- `contractDiagFull` (contract.h:305-344) with `astarts` empty. -/
def contractDiagFull (nA : Nat) (A : Nat → K) (al : List Int) (Rb : Range) (nB : Nat) (B : Int → K) (bl : List Int)
    (nC : Nat) (C : Int → K) : Res (Int → K) :=
  let bcs := (((Rb.zip bl).filter fun p => findIndex al p.2 ≥ 0).map (·.1.str)).sum
  runSteps nB nC B ((List.range nA).map fun (J : Nat) => (if nC = 1 then 0 else (J : Int), ((J * bcs : Nat) : Int), A J)) C

/-- `contractDiagDense` (diag.cc:46-127); `N` are the indices of the result with their labels. -/
def contractDiagDense (fuel : Nat) (d : DG K) (dl : List Int) (t : DS K) (tl : List Int) (N : List (Index × Int)) : Run (IT K) :=
  let Nis := N.map (·.1)
  let Rt := init (t.is.map (·.dim))
  if tl.any (· ≥ 0) then
    let n := (Nis.map (·.dim)).prod
    Run.bind (contractDiagPartial fuel d.size d.at' dl Rt t.size t.mem tl (init (Nis.map (·.dim))) n (fun _ => 0) (N.map (·.2)))
      fun m => some (.ok (.dense ⟨Nis, n, m⟩))
  else
    let us : Nat := ((((init (d.is.map (·.dim))).zip dl).filter fun p => p.2 ≥ 0).map (·.1.str)).sum
    let nsize := if us = 0 then 1 else d.length
    some ((contractDiagFull d.size d.at' dl Rt t.size t.mem tl nsize fun _ => 0).map fun m =>
      if Nis.length = 1 then .dense ⟨Nis, nsize, m⟩
      else if nsize = 1 then .diag ⟨Nis, [], m 0, 1⟩
      else .diag ⟨Nis, (List.range nsize).map fun (J : Nat) => m J, 0, nsize⟩)

/-- `isReplaceDelta` (diag.cc:129-141). -/
def isReplaceDelta (d : DG K) (l : List Int) : Bool :=
  match d.is, l with
  | [a, b], [la, lb] => d.store.isEmpty && d.val == 1 && a.dim == b.dim && (decide (la < 0) != decide (lb < 0))
  | _, _ => false

/-- `contractISReplaceIndex(Lis,Lind,Ris,Rind,Nis)` (indexset_impl.h:129-151); not reached with fewer than two indices
in `Ris`. -/
def replaceIndex (L : IndexSet) (Ll : List Int) (R : IndexSet) (Rl : List Int) : IndexSet :=
  (L.zip Ll).map fun p => if p.2 < 0 then (if Rl.headD 0 ≥ 0 then R.getD 0 p.1 else R.getD 1 p.1) else p.1

/-- `doTask(Contract,Dense,Diag)` (diag.cc:146-174). -/
def mulDenseDiag (fuel : Nat) (t : DS K) (d : DG K) : Run (IT K) :=
  let c := computeLabels t.is d.is
  if isReplaceDelta d c.2.1 then some (.ok (.dense { t with is := replaceIndex t.is c.1 d.is c.2.1 }))
  else contractDiagDense fuel d c.2.1 t c.1 (contractIS t.is d.is c.1 c.2.1)

/-- `doTask(Contract,Diag,Dense)` (diag.cc:179-208). -/
def mulDiagDense (fuel : Nat) (d : DG K) (t : DS K) : Run (IT K) :=
  let c := computeLabels d.is t.is
  if isReplaceDelta d c.1 then some (.ok (.dense { t with is := replaceIndex t.is c.2.1 d.is c.1 }))
  else contractDiagDense fuel d c.1 t c.2.1 (contractIS d.is t.is c.1 c.2.1)

/-- `doTask(ToDense,Diag)` (diag.cc:420-441), with `d.length` rounds; `d.store[i]` is not checked. -/
def toDense (d : DG K) : Res (DS K) :=
  let ds := d.is.map (·.dim)
  let n := ds.prod
  let tot := ((init ds).map (·.str)).sum
  if d.store.isEmpty = false ∧ d.store.length < d.length then .ub
  else (Res.foldM (fun (m : Int → K) (i : Nat) =>
      if i * tot < n then .ok (Function.update m ((i * tot : Nat) : Int) (d.at' i)) else .ub) (fun _ => 0) (List.range d.length)).map
    fun m => ⟨d.is, n, m⟩

/-! ## What the storages mean -/

/-- The elements of a diagonal tensor: `A(J)` where all indices have value `J`, zero elsewhere. -/
def DG.sem (d : DG K) : Ten Key K :=
  ⟨keys d.is, fun σ => ∑ J ∈ range d.length, if ∀ k ∈ keys d.is, σ k = J then d.at' J else 0⟩

def DS.sem (t : DS K) : Ten Key K :=
  ⟨keys t.is, fun σ => t.mem (rank (t.is.map (·.dim)) (t.is.map fun i => σ i.key) : Nat)⟩

/-- Indices as the library builds them. -/
structure IsOK (ext : Key → Nat) (is : IndexSet) : Prop where
  nodup : (keys is).Nodup
  dims : ∀ i ∈ is, i.dim = ext i.key
  pos : ∀ i ∈ is, 0 < i.dim
  noqn : ∀ i ∈ is, i.qns = []

/-- Dense storage of the size that the indices need. -/
structure DS.OK (ext : Key → Nat) (t : DS K) : Prop where
  is : IsOK ext t.is
  size : t.size = (t.is.map (·.dim)).prod

/-- Diagonal storage of the length of the diagonal: the smallest of the dimensions, 1 without indices (as in
`diagITensor` and `delta`, itensor.cc, itensor_impl.h). -/
structure DG.OK (ext : Key → Nat) (d : DG K) : Prop where
  is : IsOK ext d.is
  le : ∀ i ∈ d.is, d.length ≤ i.dim
  min : d.is = [] ∧ d.length = 1 ∨ ∃ i ∈ d.is, i.dim = d.length
  store : d.store = [] ∨ d.store.length = d.length

def IT.OK (ext : Key → Nat) : IT K → Prop
  | .dense t => t.OK ext
  | .diag d => d.OK ext

def IT.sem : IT K → Ten Key K
  | .dense t => t.sem
  | .diag d => d.sem

/-- The tensor `T` is what the ITensor holds: same indices (in any order), and reading any element gives
that of `T`. -/
structure Holds (ext : Key → Nat) (N : IT K) (T : Ten Key K) : Prop where
  ok : N.OK ext
  inds : (keys N.is).Perm T.inds
  elt : ∀ σ : Key → Nat, (∀ k ∈ T.inds, σ k < ext k) → N.getElt (N.is.map fun i => σ i.key) = .ok (T.val σ)

end Verif.Net
