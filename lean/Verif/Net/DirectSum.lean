import Verif.Net.Mixed

/-!
# Direct sums of ITensors

Sources: `/repo/itensor/index.cc` (`directSum(Index,Index)`), `/repo/itensor/itensor.cc` (`directSumITensors`, `directSum`, `delta`,
`matrixITensor`). Tensors without quantum numbers.
-/

namespace Verif.Net

open Verif.Tensor Verif.Tensor.Range Verif.Index Verif.Index.IndexSet Finset

variable {K : Type*} [CommRing K] [DecidableEq K]

/-- `directSum(i,j,args)` of indices without quantum numbers; `id` is the number generated for the new index. index.cc:521-531 -/
def sumIndex (id : Nat) (tags : Verif.TagSet.TagSet) (i j : Index) : Index :=
  ⟨id, if i.dim + j.dim ≤ 0 then 1 else i.dim + j.dim, 1, if tags.plev < 0 then tags.setPrime 0 else tags, []⟩

/-- `delta(i,ij)`. itensor.cc:1593-1602 -/
def deltaIT (i ij : Index) : IT K := .diag ⟨[i, ij], [], 1, min i.dim ij.dim⟩

/-- The loop `S(jj,dim(i)+jj) = 1` over the columns of a matrix with `dim(j)` rows, and `matrixITensor`, which takes its storage. itensor.cc:1132-1137,
1387-1397 -/
def shiftIT (di : Nat) (j ij : Index) : IT K :=
  let S := (List.range j.dim).foldl (fun (m : Int → K) (jj : Nat) => Function.update m ((jj + (di + jj) * j.dim : Nat) : Int) 1) fun _ => 0
  .dense ⟨[j, ij], j.dim * ij.dim, S⟩

/-- `dir(A,In)`, an error if `A` has not the index, and `In.dag()` if the arrows differ. indexset.cc:384-392, itensor.cc:1183-1184 -/
def arrow (is : IndexSet) (i : Index) : Res Index :=
  match is.find? (·.eq i) with
  | some j => .ok (if j.dir ≠ i.dir then i.dag else i)
  | none => .throw

/-- The loop over the indices to be summed: `ids` are the numbers generated. itensor.cc:1177-1190 -/
def sumLoop (fuel : Nat) (junk fresh : Int → K) (tags : Verif.TagSet.TagSet) (Ais Bis : IndexSet) : List Nat → IndexSet → IndexSet → IT K → IT K →
    Run (IndexSet × IT K × IT K)
  | id :: ids, i :: I, j :: J, AD, BD =>
    match arrow Ais i, arrow Bis j with
    | .ok i, .ok j =>
      let ij := sumIndex id tags i j
      Run.bind (AD.mulEq fuel junk fresh (deltaIT i ij)) fun AD => Run.bind (BD.mulEq fuel junk fresh (shiftIT i.dim j ij)) fun BD =>
        Run.bind (sumLoop fuel junk fresh tags Ais Bis ids I J AD BD) fun r => some (.ok (ij :: r.1, r.2))
    | _, _ => some .throw
  | _, _, _, AD, BD => some (.ok ([], AD, BD))

/-- `directSum(A,B,I,J,args)`. itensor.cc:1170-1194 -/
def directSum (fuel : Nat) (junk fresh : Int → K) (tags : Verif.TagSet.TagSet) (ids : List Nat) (A B : IT K) (I J : IndexSet) : Run (IT K × IndexSet) :=
  if I.length ≠ J.length then some .throw
  else Run.bind (sumLoop fuel junk fresh tags A.is B.is ids I J A B) fun r =>
    Run.bind (plusEqIT fuel false (some r.2.1) (some r.2.2)) fun C =>
      match C with
      | some C => some (.ok (C, r.1))
      | none => some .throw

end Verif.Net
