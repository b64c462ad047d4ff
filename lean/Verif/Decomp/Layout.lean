import Verif.Decomp.SvdRef
import Verif.Tensor.Views

/-!
# Dense matrix decompositions of matrices laid out in memory (C94)

`/repo/itensor/tensor/algs.cc`, `algs_impl.h`, `matrange.h`.

The functions get a view `M` of a matrix: a pointer into memory, the numbers of rows and columns and
the two strides (`Verif.Views.MView`). LAPACK gets and returns blocks of memory with a matrix stored
by columns. What is modelled here is which memory the functions hand to LAPACK and what they do with
the memory they get back. Reading outside the memory is `ub`. The checks under `#ifdef DEBUG` (that
the *results* are contiguous) are left out: the results are new matrices, stored by columns.
-/

namespace Verif.Layout

open Verif.Views (MView read mIter)
open Verif.SvdRef (rrows)

variable {𝕜 : Type*} [RCLike 𝕜]

/-- LAPACK as seen by the code: blocks of memory in, blocks of memory out; `none` is `info != 0`.
* `syev n A`: `dsyev`, `zheev` (algs.cc:33-46): vectors and values in ascending order;
* `qrf m n k A`: what `geqrf` leaves in the memory of `A` and what `orgqr`/`ungqr` then make of it
  (algs.cc:48-80);
* `gesdd`, `gesvd` `m n A`: `U`, the values, and `V†` (algs.cc:83-124). -/
structure Lapack (𝕜 : Type*) where
  syev : ℕ → List 𝕜 → Option (List 𝕜 × List ℝ)
  qrf : ℕ → ℕ → ℕ → List 𝕜 → Option (List 𝕜 × List 𝕜)
  gesdd : ℕ → ℕ → List 𝕜 → Option (List 𝕜 × List ℝ × List 𝕜)
  gesvd : ℕ → ℕ → List 𝕜 → Option (List 𝕜 × List ℝ × List 𝕜)

/-- The elements at the addresses `f 0`, `f 1`, ..., `f (n-1)`. -/
def gather {K : Type*} (m : List K) (f : ℕ → ℕ) : ℕ → Res (List K)
  | 0 => .ok []
  | n + 1 => (gather m f n).bind fun l => (read m (f n)).map fun x => l ++ [x]

/-! ### `diagHermitian` -/

/-- `diagHermitian(M,U,d)` (algs_impl.h:96-143) with `copyNegElts` (algs_impl.h:23-34): a contiguous
matrix is copied in the order of its memory, any other by its iterator; if the matrix is transposed,
`U` is conjugated at the end. -/
def diagHermitian (L : Lapack 𝕜) (mem : List 𝕜) (M : MView) : Res (List 𝕜 × List ℝ) :=
  let N := M.r.cn
  if N < 1 then .throw
  else if N ≠ M.r.rn then .throw
  else
    let src := if M.r.isContiguous then (fun k => M.off + k) else mIter M
    (gather mem src (N * N)).bind fun b =>
      match L.syev N (b.map fun x => -x) with
      | none => .throw
      | some (U, d) =>
        .ok (if M.r.isTransposed then U.map star else U, d.map fun x => x * (-1))

/-! ### QR -/

/-- `resize` of a matrix (mat_impl.h:31-36, ten.h:645-650): the memory is cut or filled with zeros,
elements that stay keep their place in memory. -/
def resize {K : Type*} [Zero K] (b : List K) (n : ℕ) : List K :=
  b.take n ++ List.replicate (n - b.length) 0

/-- The inner loop over `j` of `detail::QR` (algs.cc:54-58): `R(i,j) = Q(i,j)`. -/
def copyRow (m k i : ℕ) (F : List 𝕜) : (steps j : ℕ) → List 𝕜 → Res (List 𝕜)
  | 0, _, R => .ok R
  | s + 1, j, R =>
    (read F (i + j * m)).bind fun x =>
      (Verif.Views.write R (i + j * k) x).bind fun R => copyRow m k i F s (j + 1) R

/-- The loop over `i` of `detail::QR` (algs.cc:54-58). -/
def copyR (m n k : ℕ) (F : List 𝕜) : (steps i : ℕ) → List 𝕜 → Res (List 𝕜)
  | 0, _, R => .ok R
  | s + 1, i, R =>
    (copyRow m k i F (n - i) i R).bind fun R => copyR m n k F s (i + 1) R

/-- `QR(A,Q,R)` without `PositiveDiagonal` (algs_impl.h:284-345, algs.cc:48-80). `Rold` is the memory
of `R` before the call. Every element of `A` is read by its row and column; `Q` is written
completely. -/
def qr (L : Lapack 𝕜) (complete : Bool) (mem : List 𝕜) (A : MView) (Rold : List 𝕜) :
    Res (List 𝕜 × List 𝕜) :=
  let m := A.r.rn
  let n := A.r.cn
  if m < 1 ∨ n < 1 then .throw
  else
    let k := rrows complete m n
    let R := resize Rold (k * n)
    (gather mem (fun t => A.off + (t % m * A.r.rs + t / m * A.r.cs)) (m * n)).bind fun b =>
      match L.qrf m n k b with
      | none => .throw
      | some (F, Q) => (copyR m n k F k 0 R).map fun R => (Q, R)

/-! ### SVD by LAPACK -/

/-- The loop for a transposed matrix (algs_impl.h:371, 385): `cpA[(i%Mc)*Mr + i/Mc] = *pA`, `pA++`. -/
def scatter {K : Type*} (mem : List K) (mr mc p : ℕ) : (steps i : ℕ) → List K → Res (List K)
  | 0, _, a => .ok a
  | s + 1, i, a =>
    (read mem (p + i)).bind fun x =>
      (Verif.Views.write a (i % mc * mr + i / mc) x).bind fun a => scatter mem mr mc p s (i + 1) a

/-- Filling `cpA` from the pointer `pA` (algs_impl.h:370-374, 384-388): the copy and where `pA` is
afterwards. -/
def fill (mem : List 𝕜) (M : MView) (p : ℕ) : Res (List 𝕜 × ℕ) :=
  let mr := M.r.rn
  let mc := M.r.cn
  if M.r.isTransposed then
    (scatter mem mr mc p (mr * mc) 0 (List.replicate (mr * mc) 0)).map fun a => (a, p + mr * mc)
  else (gather mem (fun k => p + k) (mr * mc)).map fun a => (a, p)

/-- Which routine runs (algs_impl.h:376-397); with `automatic`, `gesvd` runs if `gesdd` failed, on a
new copy made from where `pA` is now. Any other name leaves `info` at -1. -/
def call (L : Lapack 𝕜) (method : String) (mem : List 𝕜) (M : MView) (a : List 𝕜) (p : ℕ) :
    Res (Option (List 𝕜 × List ℝ × List 𝕜)) :=
  if method = "automatic" then
    match L.gesdd M.r.rn M.r.cn a with
    | some r => .ok (some r)
    | none => (fill mem M p).map fun b => L.gesvd M.r.rn M.r.cn b.1
  else if method = "gesdd" then .ok (L.gesdd M.r.rn M.r.cn a)
  else if method = "gesvd" then .ok (L.gesvd M.r.rn M.r.cn a)
  else .ok none

/-- `SVDRefLAPACK(M,U,D,V,args)` (algs_impl.h:348-423): at the end `V†`, stored by columns, is turned
into `V` (algs_impl.h:404-420). -/
def svdLapack (L : Lapack 𝕜) (method : String) (mem : List 𝕜) (M : MView) :
    Res (List 𝕜 × List ℝ × List 𝕜) :=
  (fill mem M M.off).bind fun ap =>
    (call L method mem M ap.1 ap.2).bind fun r =>
      match r with
      | none => .throw
      | some (U, D, VT) =>
        let l := min M.r.rn M.r.cn
        (gather VT (fun i => i % M.r.cn * l + i / M.r.cn) (l * M.r.cn)).map fun V =>
          (U, D, V.map star)

/-! ### General matrices -/

/-- LAPACK's `dgeev` (lapack_wrap.cc:746-797): the values, real and imaginary parts, and the right
vectors as it packs them. -/
abbrev Geev := ℕ → List ℝ → Option (List ℝ × List ℝ × List ℝ)

/-- `column(Vr,n)` and `column(Vi,n)` of `Unpack` (algs.cc:279-305), with the flag `left` whether left
vectors are asked for as well. `V i j` is the packed matrix. The state is the real and the imaginary
part of the vectors. -/
noncomputable def unpack (N : ℕ) (di : ℕ → ℝ) (V : ℕ → ℕ → ℝ) :
    (fuel n : ℕ) → (ℕ → ℕ → ℝ) × (ℕ → ℕ → ℝ) → (ℕ → ℕ → ℝ) × (ℕ → ℕ → ℝ)
  | 0, _, s => s
  | f + 1, n, s =>
    if n < N then
      open Classical in
      if di n > 0 then
        unpack N di V f (n + 2)
          (fun i j => if j = n ∨ j = n + 1 then V i n else s.1 i j,
            fun i j => if j = n then V i (n + 1) else if j = n + 1 then V i (n + 1) * (-1)
              else s.2 i j)
      else
        unpack N di V f (n + 1)
          (fun i j => if j = n then V i n else s.1 i j, fun i j => if j = n then 0 else s.2 i j)
    else s

/-- `diagGeneralRef` for real matrices (algs.cc:219-340): the memory of `M` from its pointer on is
given to LAPACK, whatever the strides; if `M` is transposed the matrix of vectors is transposed
(algs.cc:320). With left vectors it ends in `Error` (algs.cc:327). The result: values and vectors, real
and imaginary parts. -/
noncomputable def diagGeneral (geev : Geev) (left : Bool) (mem : List ℝ) (M : MView) :
    Res ((List ℝ × List ℝ) × (ℕ → ℕ → ℝ) × (ℕ → ℕ → ℝ)) :=
  let N := M.r.cn
  if N < 1 then .throw
  else if N ≠ M.r.rn then .throw
  else
    (gather mem (fun k => M.off + k) (N * N)).bind fun b =>
      match geev N b with
      | none => .throw
      | some (dr, di, R) =>
        let V := fun i j =>
          if M.r.isTransposed then R.getD (j + i * N) 0 else R.getD (i + j * N) 0
        let v := unpack N (fun n => di.getD n 0) V N 0 (fun _ _ => 0, fun _ _ => 0)
        if left then .throw else .ok ((dr, di), v)

end Verif.Layout
