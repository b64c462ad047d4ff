import Verif.Decomp.TruncateProps
import Verif.QDense.QDiagDense
import Mathlib.Algebra.Star.Basic
import Mathlib.Algebra.Algebra.Basic

/-!
# The singular value decomposition of a matrix with quantum numbers

Model of the branch for quantum numbers of `svdImpl` (`/repo/itensor/svd.cc:167-419`) with `GetBlocks` (`/repo/itensor/decomp.h:436-459`,
`/repo/itensor/decomp.cc:86-116`). Property C68.

Simplifications. The decomposition of one block (`SVD(M,U,d,V,args)`, tensor/algs_impl.h, LAPACK) is a parameter. Matrix elements are from a commutative ring with
conjugation, singular values from an ordered field embedded in it. `A.scale()` is one (it is unless the library is compiled with `USESCALE`). A matrix
is copied column by column (`Uref &= UU`). The warnings, `ShowEigs`, `ComputeQNs` and the reported spectrum with its quantum numbers are left out. The identifiers of the
two new indices are parameters.
-/

namespace Verif.Svd

open Verif.Index (Index IndexSet)
open Verif.QDense
open Verif.Decomp (Opts)
open Verif.Tensor
open Verif.TagSet (TagSet)

variable {R K : Type*}

/-- `Ord2Block` (decomp.h:453-459): a matrix, its numbers of rows and columns, the sectors of the row and of the column index. -/
structure Ord2Block (K : Type*) where
  nr : Nat
  nc : Nat
  M : Nat → Nat → K
  i1 : Nat
  i2 : Nat

/-- Body of the loop over the blocks in `doTask(GetBlocks)` (decomp.cc:94-114); matrices are stored by columns. -/
def ord2Block (I J : Index) (trans : Bool) (d : QDense K) (dio : BlOf) : Res (Ord2Block K) :=
  match dio.block with
  | [a, b] => (blocksize0 I a).bind fun nr => (blocksize0 J b).bind fun nc =>
      let M : Nat → Nat → K := fun i j => d.data ((dio.offset + (i + nr * j) : Nat) : Int)
      .ok (if trans then ⟨nc, nr, fun i j => M j i, b, a⟩ else ⟨nr, nc, M, a, b⟩)
  | _ => .ub

/-- `doTask(GetBlocks,QDense)` (decomp.cc:86-116). -/
def getBlocks (I J : Index) (trans : Bool) (d : QDense K) : List BlOf → Res (List (Ord2Block K))
  | [] => .ok []
  | o :: os => (ord2Block I J trans d o).bind fun b => (getBlocks I J trans d os).bind fun r => .ok (b :: r)

/-- What `SVD(M,UU,d,VV)` returns. -/
structure Fac (R K : Type*) where
  U : Nat → Nat → K
  d : List R
  V : Nat → Nat → K

/-- A block with `this_m ≠ 0` after truncation: its sectors, the first factor, the values kept, the last factor (conjugated). -/
structure Kept (R K : Type*) where
  i1 : Nat
  i2 : Nat
  U : Nat → Nat → K
  d : List R
  V : Nat → Nat → K

/-- The diagonal storage `QDiagReal` with stored elements (qdiag.h:29-91). -/
structure DSto (R : Type*) where
  len : Nat
  data : Nat → R

/-- `doTask(GetElt,QDiag)` with stored elements for a matrix (qdiag.cc:158-188). -/
def DSto.elt [Zero R] (D : DSto R) (i j : Nat) : Res R :=
  if i ≠ j then .ok 0 else if i < D.len then .ok (D.data i) else .ub

/-- `Uref &= UU` after `reduceCols` (svd.cc:357-359): `nr` rows and `nc` columns at the offset `off`. -/
def putMat (d : QDense K) (off nr nc : Nat) (f : Nat → Nat → K) : Res (QDense K) :=
  Res.foldM (fun d k => write d (off + k) (f (k % nr) (k / nr))) d (List.range (nr * nc))

/-- Block `[i,n]` of the tensor with indices `X`, `L` (svd.cc:351-359, 370-381); the pointer is not checked in release builds. -/
def putBlock (X L : Index) (d : QDense K) (i n : Nat) (f : Nat → Nat → K) : Res (QDense K) :=
  match getBlock d [i, n] with
  | none => .ub
  | some off => (blocksize0 X i).bind fun nr => (blocksize0 L n).bind fun nc => putMat d off nr nc f

/-- `Dref &= d` from position `p` on. -/
def putVec (D : DSto R) (p : Nat) : List R → Res (DSto R)
  | [] => .ok D
  | x :: xs => if p < D.len then putVec { D with data := fun a => if a = p then x else D.data a } (p + 1) xs else .ub

/-- Block `[n,n]` of the diagonal tensor with indices `L`, `L'` (svd.cc:361-367, qdiag.h:342-378). -/
def putDiag (L L' : Index) (D : DSto R) (n : Nat) (d : List R) : Res (DSto R) :=
  (boundsLoop [L, L'] [n, n] (0, none)).bind fun a =>
    match a.2 with
    | none => .ub
    | some e => if a.1 ≥ e then (if d = [] then .ok D else .ub) else putVec D a.1 d

/-- The three storages while they are filled. -/
structure Asm (R K : Type*) where
  U : QDense K
  D : DSto R
  V : QDense K

/-- Body of the second loop over the blocks (svd.cc:335-400), for the block which gets the number `n`. -/
def asmStep (uI vI L L' : Index) (s : Asm R K) (p : Kept R K × Nat) : Res (Asm R K) :=
  (putBlock uI L s.U p.1.i1 p.2 p.1.U).bind fun U =>
  (putDiag L L' s.D p.2 p.1.d).bind fun D =>
  (putBlock vI L' s.V p.1.i2 p.2 p.1.V).bind fun V => .ok ⟨U, D, V⟩

/-- Result of `svdImpl`: the new indices and the storages of `U`, `D`, `V`, whose indices are `(uI,dag(L))`, `(L,R)`, `(vI,dag(R))`. -/
structure Out (R K : Type*) where
  L : Index
  L' : Index
  s : Asm R K
  truncerr : R

/-- The sectors of a new index (svd.cc:312-314). -/
def sectors (X : Index) : List (Nat × Nat) → Res (List (Verif.QN.QN × Nat))
  | [] => .ok []
  | p :: ps => (qn0 X p.1).bind fun q => (sectors X ps).bind fun r => .ok ((q, p.2) :: r)

/-- `Index(qnstorage,dir,tags)` (index.cc:677-686). -/
def newIndex (id : Nat) (dir : Int) (tags : TagSet) (qs : List (Verif.QN.QN × Nat)) : Index :=
  ⟨id, (qs.map (·.2)).sum, dir, tags, qs⟩

/-- The part of `svdImpl` after the truncation (svd.cc:322-405): new indices, storages, filled block by block. `QDiagReal(Dis)` requires equal dimensions
(qdiag.cc:118-130). -/
def assemble [Zero R] [CommRing K] (fuel : Nat) (idL idR : Nat) (tL tR : TagSet) (uI vI : Index) (te : R) (ks : List (Kept R K)) : Run (Out R K) :=
  match sectors uI (ks.map fun k => (k.i1, k.d.length)), sectors vI (ks.map fun k => (k.i2, k.d.length)) with
  | .ok lq, .ok rq =>
    let L := newIndex idL uI.dir tL lq
    let L' := newIndex idR vI.dir tR rq
    Run.bind (ofDiv (K := K) fuel [uI, L.dag] Verif.QN.QN.default) fun U =>
    Run.bind (ofDiv (K := K) fuel [vI, L'.dag] Verif.QN.QN.default) fun V =>
    if L.dim ≠ L'.dim then some .throw
    else some ((Res.foldM (asmStep uI vI L L') ⟨U, ⟨L.dim, fun _ => 0⟩, V⟩ ks.zipIdx).map fun s => ⟨L, L', s, te⟩)
  | _, _ => some .ub

section
variable [Field R] [LinearOrder R] [CommRing K] [Star K]

/-- The blocks with `this_m ≠ 0`, given the values `this_m` (svd.cc:265-315). `d.clear()` and `B.M.clear()` mark the others. -/
def keep (clip : Bool) : List (Ord2Block K × Fac R K) → List Nat → List (Kept R K)
  | (B, F) :: bs, c :: cs =>
    if c = 0 then keep clip bs cs
    else ⟨B.i1, B.i2, F.U, if clip then (F.d.take c).map (max · 0) else F.d.take c, fun i j => star (F.V i j)⟩ :: keep clip bs cs
  | _, _ => []

/-- The number of values kept in each block and the truncation error (svd.cc:225-250, 265-301). `none`: no truncation. -/
def counts (eps : R) (trunc : Option (Opts R)) (ds : List (List R)) : Res (List Nat × R) :=
  match trunc with
  | none => .ok (ds.map (·.length), 0)
  | some o =>
    let sq := ds.map fun d => d.map fun x => x * x
    (Verif.Decomp.truncate eps o (sq.flatten.mergeSort fun a b => decide (b ≤ a))).bind fun out =>
      .ok (Verif.Decomp.select out.P.length out.lower out.upper sq 0 out.ndegen, out.truncerr)

/-- `svdImpl` for a tensor with quantum numbers (svd.cc:167-419), the tensor having the indices `is`. -/
def svdQN (fuel : Nat) (svd : Nat → Nat → (Nat → Nat → K) → Fac R K) (eps : R) (trunc : Option (Opts R)) (idL idR : Nat) (tL tR : TagSet)
    (is : IndexSet) (uI vI : Index) (A : QDense K) : Run (Out R K) :=
  match is with
  | [I, J] =>
    match getBlocks I J (vI.eq I) A A.offsets with
    | .ok blocks =>
      if blocks.length = 0 then some .throw
      else if uI.dim = 0 ∨ vI.dim = 0 then some .throw
      else
        let fs := blocks.map fun B => (B, svd B.nr B.nc B.M)
        match counts eps trunc (fs.map fun p => p.2.d) with
        | .ok (cs, te) => assemble fuel idL idR tL tR uI vI te (keep trunc.isSome fs cs)
        | .throw => some .throw
        | .ub => some .ub
    | .throw => some .throw
    | .ub => some .ub
  | _ => some .throw

end

end Verif.Svd
