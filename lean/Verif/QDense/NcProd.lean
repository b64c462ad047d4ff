import Verif.Net.NcProd
import Verif.QDense.Combine
import Verif.QDense.AddProps

/-!
# The product without contraction of block-sparse tensors

Sources: `/repo/itensor/itdata/qdense.cc` (`NCProd`), `/repo/itensor/itdata/qutil.h` (`loopContractedBlocks` with a counter).

Simplifications. As in `QDense/Model.lean`. `BtoA` has `rA` elements and is written at positions up to `rB`; these stay inside the memory of an `InfArray` for up to 11 indices
(util/infarray.h), more are not considered. `checkArrows` does nothing if the arrows of the common indices are the same.
-/

namespace Verif.QDense

open Verif.Index (Index IndexSet)
open Verif.Tensor

variable {K : Type*} [CommRing K]

/-- The test whether a block of `B` matches the first block of `A` (qdense.cc:785-792): the number of the block of `A` is compared with the *label* `Bind[n]` of the index. -/
def matchesA (Ais : IndexSet) (Ablk : Block) : IndexSet → List Int → Bool
  | I :: Bis, l :: Bind => !(decide (l < 0) && decide ((Ablk.getD ((Ais.findIdx? (fun J => I.eq J)).getD 0) 0 : Int) ≠ l)) && matchesA Ais Ablk Bis Bind
  | _, _ => true

/-- The loop over the blocks of `B` (qdense.cc:782-794): the first that matches, or the last. -/
def lastB (ok : Bool) : List Block → Option Block
  | [] => none
  | b :: bs => if ok then some b else match bs with
    | [] => some b
    | _ => lastB ok bs

/-- `Cdiv += Bis[n].dir()*Bis[n].qn(1+Bblock_ind[n])` over the indices `B` has alone (qdense.cc:796-800). -/
def addUnique : IndexSet → List Int → Block → Verif.QN.QN → Res Verif.QN.QN
  | I :: Bis, l :: Bind, b :: bs, q =>
    if l > 0 then (qn0 I b).bind fun x => addUnique Bis Bind bs (q.add (x.scale I.dir)) else addUnique Bis Bind bs q
  | [], _, _, q => .ok q
  | _, _, _, _ => .ub

/-- The flux of the result (qdense.cc:776-801). `front()` of an empty list is undefined; so is the block of `B` if it has none. -/
def ncDiv (Ais Bis : IndexSet) (Bind : List Int) (A B : QDense K) : Res Verif.QN.QN :=
  (calcDiv Ais A).bind fun q =>
    match A.offsets with
    | [] => .ub
    | a :: _ =>
      match lastB (matchesA Ais a.block Bis Bind) (B.offsets.map (·.block)) with
      | some b => addUnique Bis Bind b q
      | none => if Bind.any (· > 0) then .ub else .ok q

/-- `couB.setRange(iB,0,nblock-1)` for all indices of `B`, then `setRange(AtoB[iA],ival,ival)` (qutil.h:426-439). -/
def setCounter (atob : List (Option Nat)) (blk : Block) (g : GCounter) : GCounter :=
  match atob, blk with
  | some j :: os, x :: a => setCounter os a (g.setRange j x x)
  | none :: os, _ :: a => setCounter os a g
  | _, _ => g

/-- The body of the loop over the blocks of `B` (qutil.h:441-463) with `do_ncprod` (qdense.cc:808-831). A block that `C` does not have is a null pointer (an `assert` without `NDEBUG`). -/
def ncStep (fuel : Nat) (Ais Bis Cis : IndexSet) (Aind Bind Cind : List Int) (src : List (Nat ⊕ Nat)) (A B : QDense K) (aio : BlOf) (C : QDense K) (bblk : Block) : Run (QDense K) :=
  match getBlock B bblk with
  | none => some (.ok C)
  | some bo =>
    match getBlock C (cBlock src aio.block bblk) with
    | none => some .ub
    | some co =>
      match blockExtents Ais aio.block, blockExtents Bis bblk, blockExtents Cis (cBlock src aio.block bblk) with
      | .ok ea, .ok eb, .ok ec =>
        Run.bind (Verif.Net.ncprodImpl fuel (Range.init ea) (A.size - aio.offset) (fun x => A.data (aio.offset + x)) Aind (Range.init eb) (B.size - bo) (fun x => B.data (bo + x)) Bind
          (Range.init ec) (C.size - co) (fun x => C.data (co + x)) Cind) fun m => some (.ok { C with data := fun x => m (x - co) })
      | _, _, _ => some .ub

/-- The loop over the blocks of `A` (qutil.h:423-464). -/
def ncBlocks (fuel : Nat) (Ais Bis Cis : IndexSet) (Aind Bind Cind : List Int) (src : List (Nat ⊕ Nat)) (A B : QDense K) (C : QDense K) (aio : BlOf) : Run (QDense K) :=
  Run.bind (GCounter.forEach fuel (setCounter (aToB Ais Bis) aio.block (GCounter.ofExtents (Bis.map (·.nblock))))) fun gs =>
    runFold (ncStep fuel Ais Bis Cis Aind Bind Cind src A B aio) C (gs.map fun g => g.i.map Int.toNat)

/-- `doTask(NCProd&,QDense,QDense)` (qdense.cc:749-840). -/
def ncQ (fuel : Nat) (Ais Bis : IndexSet) (A B : QDense K) : Run (QDense K × IndexSet) :=
  let lab := Verif.Index.IndexSet.computeLabels Ais Bis
  let N := Verif.Net.ncIS Ais Bis lab.1 lab.2.1
  let Cis := N.map (·.1)
  Run.bind (some (ncDiv Ais Bis lab.2.1 A B)) fun div =>
    Run.bind (ofDiv fuel Cis div) fun C =>
      Run.bind (some (cSource Ais Bis Cis)) fun src =>
        Run.bind (runFold (ncBlocks fuel Ais Bis Cis lab.1 lab.2.1 (N.map (·.2)) src A B) C A.offsets) fun C => some (.ok (C, Cis))

end Verif.QDense
