import Verif.Net.Combine
import Verif.Net.Permute

/-!
# `eigen` of a tensor

Source: `/repo/itensor/decomp.cc` (`eigen`, `eigDecompImpl`). Dense tensors without quantum numbers (with them `eigDecompImpl` ends in an error). The eigenvectors of a matrix come from
LAPACK, which is a parameter; how the memory of a matrix is passed to it is the subject of C94. Real and imaginary parts are put together in the type of the elements; that
imaginary parts smaller than 1E-16 are dropped (decomp.cc:620, 642) is left out, and the scale of a tensor is one. The option "FullDecomp" is left out: it never returns (C94).
-/

namespace Verif.Eigen

open Verif.Tensor Verif.Index Verif.Index.IndexSet Verif.Net
open Verif.TagSet (TagSet)

variable {K : Type*} [CommRing K] [DecidableEq K]

/-- LAPACK: for the number of rows and the matrix, the eigenvectors (as columns) and the eigenvalues. -/
abbrev Geev (K : Type*) := Nat → (Nat → Nat → K) → (Nat → Nat → K) × List K

/-- `Index(m,tags)`. index.cc:65-73 -/
def newInd (id m : Nat) (tags : TagSet) : Index := ⟨id, m, 1, if tags.plev < 0 then tags.setPrime 0 else tags, []⟩

/-- `eigDecompImpl` (decomp.cc:578-690) with `toMatRefc` (decomp.cc:68-79), which makes a transposed view if `prime(lind)` is not the first index. Of a transposed
matrix the memory is given to LAPACK as it is, and the matrix of vectors is transposed (tensor/algs.cc:219-340). -/
def eigDecomp (geev : Geev K) (id : Nat) (tags : TagSet) (T : DS K) : Res (DS K × DG K) :=
  match T.is with
  | [i, _] =>
    let lind := i.setPrime 0
    let N := lind.dim
    if T.size < N * N then .ub
    else
      let r := geev N fun a b => T.mem ((a + b * N : Nat) : Int)
      let mid := newInd id N tags
      .ok (⟨[lind, mid], N * N, fun a => if (lind.prime 1).eq i then r.1 (a.toNat % N) (a.toNat / N) else r.1 (a.toNat / N) (a.toNat % N)⟩,
        ⟨[mid.prime 1, mid], r.2, 0, N⟩)
  | _ => .throw

/-- `if(inds(Tc)(1) != prime(cind)) Tc = permute(Tc,{prime(cind),cind})`. decomp.cc:844-845 -/
def reorder (fuel : Nat) (c : Index) (T : DS K) : Run (DS K) :=
  match T.is with
  | [] => some .throw
  | i :: _ =>
    if i.eq (c.prime 1) then some (.ok T)
    else Run.bind ((IT.dense T).permute fuel [c.prime 1, c]) fun t =>
      match t with
      | .dense t => some (.ok t)
      | .diag _ => some .throw

/-- `eigen(T,V,D,args)` (decomp.cc:819-860). `id1` and `id2` are the random identities of the combined and the new index, `tags` the option "Tags", which is that
of the combiner, too. -/
def eigen (fuel : Nat) (fresh : Int → K) (geev : Geev K) (id1 id2 : Nat) (tags : TagSet) (T : DS K) : Run (DS K × DG K) :=
  match combinerInds id1 tags (T.is.filter fun i => i.plev = 0) with
  | .ok (c :: cs) =>
    Run.bind (mulCombiner fuel fresh T ((c :: cs).map fun i => i.dag.prime 1)) fun T1 =>
      Run.bind (mulCombiner fuel fresh T1 (c :: cs)) fun T2 =>
        Run.bind (reorder fuel c T2) fun T3 =>
          match eigDecomp geev id2 tags T3 with
          | .ok (V, D) => Run.bind (mulCombiner fuel fresh V (c :: cs)) fun V => some (.ok (V, D))
          | .throw => some .throw
          | .ub => some .ub
  | .ok [] => some .ub
  | .throw => some .throw
  | .ub => some .ub

end Verif.Eigen
