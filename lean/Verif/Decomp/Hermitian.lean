import Verif.Decomp.Svd

/-!
# The eigenvalue decomposition of a hermitian matrix with quantum numbers

Model of the branch for quantum numbers of `diagHImpl` (`/repo/itensor/hermitian.cc:180-427`) and of `expHermitian` (`/repo/itensor/decomp.cc:900-926`). Property C78.

Simplifications. As for `svdImpl` (`Decomp/Svd.lean`): the decomposition of one block (`diagHermitian(M,UU,d)`, tensor/algs_impl.h:96-143, LAPACK) is a parameter, `H.scale()` is one, the
reported spectrum with its quantum numbers and the warnings are left out, the identifier of the new index is a parameter. The matrix has the indices `ai` and `prime(dag(ai),pdiff)`, in either
order (`diagPosSemiDef` combines the indices of a tensor first, decomp.cc:710-790). The check `m > maxdim` is left out: `truncate` keeps at most `maxdim` values (C36), and without truncation
`maxdim` is the dimension of the index (hermitian.cc:72, 83-92). The check of the flux in debug builds is left out.
-/

namespace Verif.Svd

open Verif.Index (Index IndexSet)
open Verif.QDense
open Verif.Decomp (Opts)
open Verif.Tensor
open Verif.TagSet (TagSet)

variable {R K : Type*}

/-- What `diagHermitian(M,UU,d)` returns (tensor/algs_impl.h:96-143). -/
structure HFac (R K : Type*) where
  U : Nat → Nat → K
  d : List R

/-- A block with `this_m ≠ 0` after truncation: its sector, the conjugated eigenvectors, the values kept. -/
structure KeptH (R K : Type*) where
  i1 : Nat
  U : Nat → Nat → K
  d : List R

/-- Body of the last loop over the blocks (hermitian.cc:370-399), for the block which gets the number `n`; the indices of `U` are `(aiD,dag(L))`, those of `D` `(prime(L,pd),dag(L))`. -/
def asmStepH (aiD L : Index) (pd : Int) (s : QDense K × DSto R) (p : KeptH R K × Nat) : Res (QDense K × DSto R) :=
  (putBlock aiD L s.1 p.1.i1 p.2 p.1.U).bind fun U =>
  (putDiag (L.prime pd) L.dag s.2 p.2 p.1.d).bind fun D => .ok (U, D)

/-- Result of `diagHImpl`: the new index, the storages of `U` and `D`. -/
structure OutH (R K : Type*) where
  L : Index
  U : QDense K
  D : DSto R
  truncerr : R

/-- The part of `diagHImpl` after the truncation (hermitian.cc:352-402): when no value is kept the new index has one sector of size 1, that of the first block. -/
def assembleH [Zero R] [CommRing K] (fuel : Nat) (id : Nat) (t : TagSet) (ai : Index) (pd : Int) (te : R) (first : Nat) (ks : List (KeptH R K)) : Run (OutH R K) :=
  match sectors ai (if ks = [] then [(first, 1)] else ks.map fun k => (k.i1, k.d.length)) with
  | .ok q =>
    let L := newIndex id ai.dag.dir t q
    Run.bind (ofDiv (K := K) fuel [ai.dag, L.dag] Verif.QN.QN.default) fun U =>
    some ((Res.foldM (asmStepH ai.dag L pd) (U, ⟨L.dim, fun _ => 0⟩) ks.zipIdx).map fun s => ⟨L, s.1, s.2, te⟩)
  | .throw => some .throw
  | .ub => some .ub

section
variable [Field R] [LinearOrder R] [CommRing K] [Star K]

/-- The blocks with `this_m ≠ 0`, given the values `this_m` (hermitian.cc:301-350); `conjugate(UU)` (hermitian.cc:241). -/
def keepH : List (Ord2Block K × HFac R K) → List Nat → List (KeptH R K)
  | (B, F) :: bs, c :: cs => if c = 0 then keepH bs cs else ⟨B.i1, fun i j => star (F.U i j), F.d.take c⟩ :: keepH bs cs
  | _, _ => []

/-- The number of values kept in each block and the truncation error (hermitian.cc:261-283, 306-336). `none`: no truncation. -/
def countsH (eps : R) (trunc : Option (Opts R)) (ds : List (List R)) : Res (List Nat × R) :=
  match trunc with
  | none => .ok (ds.map (·.length), 0)
  | some o =>
    (Verif.Decomp.truncate eps o (ds.flatten.mergeSort fun a b => decide (b ≤ a))).bind fun out =>
      .ok (Verif.Decomp.select out.P.length out.lower out.upper ds 0 out.ndegen, out.truncerr)

/-- `diagHImpl` for a tensor with quantum numbers (hermitian.cc:180-427), the tensor having the indices `is`, `ai` being that with the lower prime level. `diagHermitian` throws if the
block is empty or not square (tensor/algs_impl.h:104-110). Without any block the `Error` is at hermitian.cc:354. -/
def diagQN (fuel : Nat) (herm : Nat → (Nat → Nat → K) → HFac R K) (eps : R) (trunc : Option (Opts R)) (id : Nat) (t : TagSet) (is : IndexSet) (ai : Index) (pd : Int) (H : QDense K) :
    Run (OutH R K) :=
  match is with
  | [I, J] =>
    match getBlocks I J ((ai.prime pd).eq I) H H.offsets with
    | .ok blocks =>
      if blocks.any fun B => B.nc = 0 ∨ B.nc ≠ B.nr then some .throw
      else
        let fs := blocks.map fun B => (B, herm B.nr B.M)
        match countsH eps trunc (fs.map fun p => p.2.d) with
        | .ok (cs, te) => if blocks = [] then some .throw else assembleH fuel id t ai pd te ((blocks.map (·.i1)).headD 0) (keepH fs cs)
        | .throw => some .throw
        | .ub => some .ub
    | .throw => some .throw
    | .ub => some .ub
  | _ => some .throw

end

/-- An element of a matrix as it is read from its storage; 0 where it cannot be read. -/
def readM [CommRing K] (d : QDense K) (is : IndexSet) (i j : Nat) : K :=
  match getElt d is [i, j] with
  | .ok x => x
  | _ => 0

/-- The element `(i,j')` of `prime(U)*d*dag(U)` (decomp.cc:925) after `d.apply(f)` (decomp.cc:916-923), `f` being the exponential of `t` times its argument: the product is taken
element by element (for the contraction of storages see C23), `U` with the indices `(dag(ai),dag(L))`. The two cases of `t` differ in the type of the result only. -/
def expElem [CommRing K] [Star K] (f : R → K) (ai : Index) (out : OutH R K) (i j : Nat) : K :=
  ((List.range out.L.dim).map fun l => readM out.U [ai.dag, out.L.dag] j l * f (out.D.data l) * star (readM out.U [ai.dag, out.L.dag] i l)).sum

end Verif.Svd
