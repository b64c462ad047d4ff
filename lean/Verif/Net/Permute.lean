import Verif.Net.DirectSumC98
import Verif.QDense.NcProd
import Verif.QDense.FluxC82

/-!
# Permuting the indices of a tensor

Sources: `/repo/itensor/itensor.cc` (`ITensor::permute`), `/repo/itensor/itdata/dense.cc`, `/repo/itensor/itdata/diag.h`, `/repo/itensor/itdata/qdense.cc` (`Order`).
-/

namespace Verif.Net

open Verif.Tensor Verif.Tensor.Range Verif.Tensor.Permutation Verif.Index Verif.Index.IndexSet Finset

variable {K : Type*} [CommRing K]

/-- A default constructed Index (index.cc:55-63). -/
def noIndex : Index := ⟨0, 1, 1, Verif.TagSet.TagSet.default, []⟩

/-- `bind.setIndex(P.dest(i),Ais[i])` for all `i` (itensor.cc:655-660, qdense.cc:857-860). -/
def permInds (P : Permutation) (is : IndexSet) : Res IndexSet := permuteLoop P is (List.replicate is.length noIndex)

/-- `doTask(Order,Dense)` (dense.cc:416-437): the storage keeps its size. -/
def orderDense (fuel : Nat) (P : Permutation) (t : DS K) (Bis : IndexSet) : Run (DS K) :=
  if t.size < (t.is.map (·.dim)).prod ∨ t.size < (Bis.map (·.dim)).prod then some .ub
  else match permuteRange (init (t.is.map (·.dim))) P with
    | .ok V => Run.bind (runTransform fuel (fun b _ => b) V (init (Bis.map (·.dim))) t.mem t.mem) fun m => some (.ok ⟨Bis, t.size, m⟩)
    | .throw => some .throw
    | .ub => some .ub

/-- `ITensor::permute` (itensor.cc:629-671) for a tensor without quantum numbers. Nothing is done to diagonal storage (diag.h:224-227). -/
def IT.permute (fuel : Nat) (iset : IndexSet) (T : IT K) : Run (IT K) :=
  if T.is.length ≠ iset.length then some .throw
  else match calcPerm (keys T.is) (keys iset) with
    | .ok P =>
      if isTrivial P then some (.ok T)
      else match permInds P T.is with
        | .ok Bis => match T with
          | .dense t => Run.bind (orderDense fuel P t Bis) fun n => some (.ok (.dense n))
          | .diag d => some (.ok (.diag { d with is := Bis }))
        | .throw => some .throw
        | .ub => some .ub
    | .throw => some .throw
    | .ub => some .ub

end Verif.Net

namespace Verif.QDense

open Verif.Index (Index IndexSet)
open Verif.Index.IndexSet (keys)
open Verif.Tensor Verif.Tensor.Permutation

variable {K : Type*} [CommRing K]

/-- The loop body of `permuteQDense` (qdense.cc:866-880) for a block of `A`. `Bblock` is written at the positions `P.dest(j)`; it starts as all -1, which is left where `P` is not a permutation (here 0). A block that `B` does not have is a null pointer. -/
def orderBlock (fuel : Nat) (P : Permutation) (Ais Bis : IndexSet) (A : QDense K) (B : QDense K) (aio : BlOf) : Run (QDense K) :=
  match permuteLoop P aio.block (List.replicate Ais.length 0) with
  | .ok bblk =>
    match getBlock B bblk with
    | none => some .ub
    | some boff =>
      match blockExtents Ais aio.block, blockExtents Bis bblk with
      | .ok ea, .ok eb =>
        match Range.permuteRange (Range.init ea) P with
        | .ok V =>
          Run.bind (runTransform fuel (fun b a => a + b) V (Range.init eb) (fun x => A.data (aio.offset + x)) (fun x => B.data (boff + x))) fun m =>
            some (.ok { B with data := fun x => m (x - boff) })
        | _ => some .ub
      | _, _ => some .ub
  | _ => some .ub

/-- `permuteQDense` (qdense.cc:847-881). -/
def orderQ (fuel : Nat) (P : Permutation) (Ais : IndexSet) (A : QDense K) : Run (QDense K) :=
  match Verif.Net.permInds P Ais with
  | .ok Bis => Run.bind (Run.lift (calcDiv Ais A)) fun div => Run.bind (ofDiv fuel Bis div) fun B => runFold (orderBlock fuel P Ais Bis A) B A.offsets
  | _ => some .ub

/-- `ITensor::permute` (itensor.cc:629-671) for a tensor with quantum numbers, whose storage may not be allocated yet. -/
def permuteT (fuel : Nat) (iset : IndexSet) (T : QTensor K) : Run (QTensor K) :=
  if T.is.length ≠ iset.length then some .throw
  else match calcPerm (keys T.is) (keys iset) with
    | .ok P =>
      if isTrivial P then some (.ok T)
      else match Verif.Net.permInds P T.is with
        | .ok Bis => match T.store with
          | some d => Run.bind (orderQ fuel P T.is d) fun d => some (.ok ⟨Bis, some d⟩)
          | none => some (.ok ⟨Bis, none⟩)
        | .throw => some .throw
        | .ub => some .ub
    | .throw => some .throw
    | .ub => some .ub

end Verif.QDense
