import Verif.QDense.FluxC82
import Verif.QDense.QDiagDense
import Verif.Net.DiagC28

/-!
# Products of diagonal and block-sparse tensors

Model of `doTask(Contract,QDiag,QDense)` and `doTask(Contract,QDense,QDiag)` (`/repo/itensor/itdata/qdiag.cc:351-547`) with `loopContractedBlocks` for
`QDiag` (`/repo/itensor/itdata/qutil.h:370-462`), `diagBlockBounds` and `getBlock(QDiag)` (`/repo/itensor/itdata/qdiag.h:292-353`), and with the
argument `astarts` of `contractDiagPartial` and `contractDiagFull` (`/repo/itensor/tensor/contract.h:218-350`). Property C103.

Simplifications. Elements are from a commutative ring. A diagonal tensor is `Net.DG`: its indices and its storage. `DEBUG` is off and so is `assert`: an access through a null
pointer (a block of the result which has no storage) is undefined behaviour. All indices have quantum numbers.
-/

namespace Verif.QDense

open Verif.Index (Index IndexSet)
open Verif.Index.IndexSet (keys computeLabels contractIS Key prodInds)
open Verif.Tensor
open Verif.Tensor.Range
open Verif.Net (DG runSteps dot replaceIndex isReplaceDelta)

section model
variable {K : Type*} [CommRing K] [DecidableEq K]

/-- `starts[n]` before the second loop of `diagBlockBounds` (qdiag.h:299): the value of each index at the begin of its sector. -/
def blockStarts : IndexSet → Block → Res (List Nat)
  | [], _ => .ok []
  | _ :: _, [] => .ub
  | I :: is, b :: bs => (sectorStart I b).bind fun st => (blockStarts is bs).bind fun r => .ok (st :: r)

/-- `diagBlockBounds` (qdiag.h:292-308): first and last diagonal element in the block, and where the first one is in the block. -/
def diagBlockBounds (is : IndexSet) (b : Block) : Res (Nat × Nat × List Nat) :=
  (boundsLoop is b (0, none)).bind fun a =>
    match a.2 with
    | none => .ub
    | some e => (blockStarts is b).map fun ss => (a.1, e, ss.map fun s => a.1 - s)

/-- `astarts[ia]*stride` summed over the indices found in `al` (contract.h:241-253, 256-264). -/
def startOff (al : List Int) (starts : List Nat) (z : List (IndStr × Int)) : Nat :=
  ((z.filter fun p => findIndex al p.2 ≥ 0).map fun p => starts.getD (findIndex al p.2).toNat 0 * p.1.str).sum

/-- `contractDiagPartial` (contract.h:229-304) with the argument `astarts`; see `Net.contractDiagPartial` for the checks. -/
def contractDiagPartialS (fuel : Nat) (nA : Nat) (A : Nat → K) (al : List Int) (starts : List Nat) (Rb : Range) (nB : Nat) (B : Int → K)
    (bl : List Int) (Rc : Range) (nC : Nat) (C : Int → K) (cl : List Int) : Run (Int → K) :=
  let bz := Rb.zip bl
  let cz := Rc.zip cl
  let bcs := ((bz.filter fun p => findIndex al p.2 ≥ 0).map (·.1.str)).sum
  let bst := startOff al starts bz
  let nbu := (bz.filter fun p => findIndex al p.2 < 0).length
  let ccs := ((cz.filter fun p => findIndex al p.2 ≥ 0).map (·.1.str)).sum
  let cst := startOff al starts cz
  let unc := bz.filter fun p => p.2 > 0
  if unc.length ≠ nbu ∨ unc.any (fun p => findIndex cl p.2 < 0) then some .ub
  else
    let bus := unc.map (·.1.str)
    let cus := unc.map fun p => (Rc.getD (findIndex cl p.2).toNat ⟨0, 0⟩).str
    Run.bind (GCounter.forEach fuel (GCounter.ofExtents (unc.map (·.1.ind)))) fun gs =>
      some (runSteps nB nC B (gs.flatMap fun g => (List.range nA).map fun (J : Nat) =>
        (((cst + J * ccs : Nat) : Int) + dot g.i cus, ((bst + J * bcs : Nat) : Int) + dot g.i bus, A J)) C)

/-- `contractDiagFull` (contract.h:306-348) with the argument `astarts`: the result is not shifted. -/
def contractDiagFullS (nA : Nat) (A : Nat → K) (al : List Int) (starts : List Nat) (Rb : Range) (nB : Nat) (B : Int → K) (bl : List Int)
    (nC : Nat) (C : Int → K) : Res (Int → K) :=
  let bcs := (((Rb.zip bl).filter fun p => findIndex al p.2 ≥ 0).map (·.1.str)).sum
  let bst := startOff al starts (Rb.zip bl)
  runSteps nB nC B ((List.range nA).map fun (J : Nat) => (if nC = 1 then 0 else (J : Int), ((bst + J * bcs : Nat) : Int), A J)) C

/-- The sector of the index `J` in the block `a` of the first tensor, `x` if it does not have this index. -/
def sectorIn (Tis : IndexSet) (a : Block) (J : Index) (x : Int) : Int :=
  match Tis.findIdx? (fun I => I.eq J) with
  | some i => ((a.getD i 0 : Nat) : Int)
  | none => x

/-- `couB` for a block `a` of the first tensor (qutil.h:421-437), seen from the indices of the second one: an index which the first has too stays at
the sector that it has in `a`. (The first tensor does not have an index twice.) -/
def couB (Tis Dis : IndexSet) (a : Block) : GCounter :=
  let f := Dis.map fun J => sectorIn Tis a J 0
  ⟨f, Dis.map fun J => sectorIn Tis a J ((J.nblock : Int) - 1), f, 0⟩

/-- Body of the loop over blocks (qutil.h:439-460) for the blocks `ao` and `b`, and `do_contract` (qdiag.cc:381-422) when the block-sparse tensor keeps an index. A pair
whose block of the diagonal tensor has no diagonal element is left out. `Dref` refers to the stored elements from `nb` on, without a check. -/
def dStep (fuel : Nat) (Tis Nis : IndexSet) (dl tl cl : List Int) (src : List (Nat ⊕ Nat)) (d : DG K) (t : QDense K)
    (Coff : List BlOf) (Csize : Nat) (ao : BlOf) (m : Int → K) (b : Block) : Run (Int → K) :=
  Run.bind (Run.lift (diagBlockBounds d.is b)) fun r =>
    if r.1 ≥ r.2.1 then some (.ok m)
    else if d.store.isEmpty = false ∧ d.store.length < r.2.1 then some .ub
    else
      match getBlock (⟨Coff, Csize, m⟩ : QDense K) (cBlock src ao.block b) with
      | none => some .ub
      | some co =>
        Run.bind (Run.lift (blockExtents Tis ao.block)) fun et =>
        Run.bind (Run.lift (blockExtents Nis (cBlock src ao.block b))) fun ec =>
        Run.bind (contractDiagPartialS fuel (r.2.1 - r.1) (fun J => d.at' (r.1 + J)) dl r.2.2 (init et) (t.size - ao.offset) (fun x => t.data (ao.offset + x)) tl
          (init ec) (Csize - co) (fun x => m (co + x)) cl) fun c => some (.ok fun x => c (x - co))

/-- The loop over the blocks of the block-sparse tensor (qutil.h:418-461). -/
def tStep (fuel : Nat) (Tis Dis : IndexSet) (f : BlOf → (Int → K) → Block → Run (Int → K)) (m : Int → K) (ao : BlOf) : Run (Int → K) :=
  Run.bind (GCounter.forEach fuel (couB Tis Dis ao.block)) fun gs => runFold (f ao) m (gs.map fun g => g.i.map Int.toNat)

/-- The same when the block-sparse tensor keeps no index (qdiag.cc:436-471): the result is diagonal, and `cblock` the part of its elements in the block, all of it
(one element) without indices. `clen` is the number of its elements. -/
def fStep (Tis Nis : IndexSet) (dl tl : List Int) (src : List (Nat ⊕ Nat)) (d : DG K) (t : QDense K) (clen : Nat)
    (ao : BlOf) (m : Int → K) (b : Block) : Run (Int → K) :=
  Run.bind (Run.lift (diagBlockBounds d.is b)) fun r =>
    if r.1 ≥ r.2.1 then some (.ok m)
    else if d.store.isEmpty = false ∧ d.store.length < r.2.1 then some .ub
    else
      Run.bind (Run.lift (if Nis = [] then .ok (0, 1, []) else diagBlockBounds Nis (cBlock src ao.block b))) fun q =>
        if q.1 ≥ q.2.1 ∨ clen < q.2.1 then some .ub
        else
          Run.bind (Run.lift (blockExtents Tis ao.block)) fun et =>
          Run.bind (Run.lift (contractDiagFullS (r.2.1 - r.1) (fun J => d.at' (r.1 + J)) dl r.2.2 (init et) (t.size - ao.offset) (fun x => t.data (ao.offset + x)) tl
            (q.2.1 - q.1) (fun x => m (q.1 + x)))) fun c => some (.ok fun x => c (x - q.1))

/-- A tensor with quantum numbers. -/
inductive QT (K : Type*) where
  | sparse (is : IndexSet) (t : QDense K)
  | diag (d : DG K)

def QT.is : QT K → IndexSet
  | .sparse is _ => is
  | .diag d => d.is

/-- `elt` (`doTask(GetElt,QDense)`, `doTask(GetElt,QDiag)`, qdiag.cc:158-185: the same as for `Diag`, except for `store.front()` without indices). -/
def QT.getElt : QT K → List Nat → Res K
  | .sparse is t, i => QDense.getElt t is i
  | .diag d, i => if d.is = [] then (match d.store with | x :: _ => .ok x | [] => .ub) else d.getElt i

/-- `computeLength` (qdiag.cc:118-130). -/
def diagLen : IndexSet → Res Nat
  | [] => .ok 1
  | I :: is => if is.any (fun J => I.dim != J.dim) then .throw else .ok I.dim

/-- `blockDiagDense` (qdiag.cc:351-476); `N` are the indices of the result with their labels. -/
def blockDiagDense (fuel : Nat) (d : DG K) (dl : List Int) (Tis : IndexSet) (t : QDense K) (tl : List Int) (N : List (Index × Int)) : Run (QT K) :=
  let Nis := N.map (·.1)
  Run.bind (Run.lift (qdiagDiv d.is)) fun q1 =>
  Run.bind (Run.lift (calcDiv Tis t)) fun q2 =>
  Run.bind (Run.lift (cSource Tis d.is Nis)) fun src =>
    if tl.any (· ≥ 0) then
      Run.bind (ofDiv (K := K) fuel Nis (q1.add q2)) fun C =>
      Run.bind (runFold (tStep fuel Tis d.is (dStep fuel Tis Nis dl tl (N.map (·.2)) src d t C.offsets C.size)) C.data t.offsets) fun m =>
        some (.ok (.sparse Nis { C with data := m }))
    else
      Run.bind (Run.lift (diagLen Nis)) fun n =>
      Run.bind (runFold (tStep fuel Tis d.is (fStep Tis Nis dl tl src d t n)) (fun _ => 0) t.offsets) fun m =>
        some (.ok (.diag ⟨Nis, (List.range n).map fun (J : Nat) => m J, 0, n⟩))

/-- `doTask(Contract,QDense,QDiag)` (qdiag.cc:520-547) with `isReplaceDelta` (qdiag.cc:478-490, the same as for `Diag`). -/
def mulSparseDiag (fuel : Nat) (Tis : IndexSet) (t : QDense K) (d : DG K) : Run (QT K) :=
  let c := computeLabels Tis d.is
  if isReplaceDelta d c.2.1 then some (.ok (.sparse (replaceIndex Tis c.1 d.is c.2.1) t))
  else blockDiagDense fuel d c.2.1 Tis t c.1 (contractIS Tis d.is c.1 c.2.1)

/-- `doTask(Contract,QDiag,QDense)` (qdiag.cc:492-518). -/
def mulDiagSparse (fuel : Nat) (d : DG K) (Tis : IndexSet) (t : QDense K) : Run (QT K) :=
  let c := computeLabels d.is Tis
  if isReplaceDelta d c.1 then some (.ok (.sparse (replaceIndex Tis c.2.1 d.is c.1) t))
  else blockDiagDense fuel d c.1 Tis t c.2.1 (contractIS d.is Tis c.1 c.2.1)

end model

end Verif.QDense
