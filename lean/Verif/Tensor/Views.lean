import Verif.Base
import Verif.Tensor.Gemm
import Mathlib.Algebra.Field.Basic

/-!
# Views of vectors and matrices and their arithmetic (C89)

`/repo/itensor/tensor/vec.cc`, `vec.h`, `vecrange.h`, `mat.cc`, `mat_impl.h`, `matrange.h`,
`slicemat.h`.

Memory is one list of elements; every `Vector`, `Matrix`, `CVector`, `CMatrix` lives somewhere in
it, and a view is an address with a range.  Reading or writing past the end of the memory is `ub`.
Elements are taken from a field `K` (exact arithmetic); `K` is ℝ for `Vector`/`Matrix` and ℂ for
`CVector`/`CMatrix`.  `realData` (ten.h:851-863) hands a complex view to BLAS as twice as many real
numbers; scaling and adding with a real factor acts on the real numbers as on the complex ones, so
the model keeps the elements.  The size checks of the source are under `#ifdef DEBUG` and are
left out, as in a build without `DEBUG`.
-/

namespace Verif.Views

open Verif.Tensor (MatRange)

/-- `VecRangeT` (vecrange.h:37-61): number of elements and stride. -/
structure VecRange where
  ext : Nat
  stride : Nat
  deriving DecidableEq, Repr

/-- `VectorRef`: a data pointer with a `VecRange` (ten.h:330-440). -/
structure VView where
  off : Nat
  r : VecRange
  deriving DecidableEq, Repr

/-- `MatrixRef`: a data pointer with a `MatRange` (ten.h:330-440). -/
structure MView where
  off : Nat
  r : MatRange
  deriving DecidableEq, Repr

/-! ### Making views -/

/-- `makeRef(Vector)`: all of a vector of size `n` stored at `p` (ten.h:732, vecrange.h:51-55). -/
def vec (p n : Nat) : VView := ⟨p, ⟨n, 1⟩⟩

/-- `makeVecRef(p,size,stride)` (vec.h:290-310). -/
def makeVecRef (p n s : Nat) : VView := ⟨p, ⟨n, s⟩⟩

/-- `makeVecRefc(p,size,stride)` (vec.h:311-319): calls `makeVecRef(p,size)`. -/
def makeVecRefc (p n _s : Nat) : VView := vec p n

/-- `subVector(v,start,stop)` (vec.h:325-336): the offset is `start` and the range has stride 1,
whatever the stride of `v`. -/
def subVector (v : VView) (start stop : Nat) : VView := ⟨v.off + start, ⟨stop - start, 1⟩⟩

/-- `makeRef(Matrix)`: all of a `rn` by `cn` matrix stored at `p` (ten.h:732, matrange.h:47-50). -/
def mat (p rn cn : Nat) : MView := ⟨p, MatRange.mk2 rn cn⟩

/-- `transpose(M)` (slicemat.h:23-29). -/
def MView.transpose (M : MView) : MView := ⟨M.off, M.r.transpose⟩

/-- `subMatrix(M,rstart,rstop,cstart,cstop)` (slicemat.h:31-48). -/
def subMatrix (M : MView) (rstart rstop cstart cstop : Nat) : MView :=
  ⟨M.off + (M.r.rs * rstart + M.r.cs * cstart),
    ⟨rstop - rstart, M.r.rs, cstop - cstart, M.r.cs⟩⟩

/-- `rows(M,rstart,rstop)` (slicemat.h:50-58). -/
def rows (M : MView) (rstart rstop : Nat) : MView := subMatrix M rstart rstop 0 M.r.cn

/-- `columns(M,cstart,cstop)` (slicemat.h:60-68). -/
def columns (M : MView) (cstart cstop : Nat) : MView := subMatrix M 0 M.r.rn cstart cstop

/-- `diagonal(M)` (slicemat.h:70-78). -/
def diagonal (M : MView) : VView := ⟨M.off, ⟨min M.r.rn M.r.cn, M.r.rs + M.r.cs⟩⟩

/-- `row(M,j)` (slicemat.h:80-91). -/
def row (M : MView) (j : Nat) : VView := ⟨M.off + j * M.r.rs, ⟨M.r.cn, M.r.cs⟩⟩

/-- `column(M,j)` (slicemat.h:93-104). -/
def column (M : MView) (j : Nat) : VView := ⟨M.off + j * M.r.cs, ⟨M.r.rn, M.r.rs⟩⟩

/-! ### Memory and iterators -/

section
variable {K : Type*}

/-- Read one element. -/
def read (m : List K) (a : Nat) : Res K :=
  match m[a]? with
  | some x => .ok x
  | none => .ub

/-- Write one element. -/
def write (m : List K) (a : Nat) (x : K) : Res (List K) :=
  if a < m.length then .ok (m.set a x) else .ub

/-- The address reached by a plain pointer after `k` increments. -/
def ptr (p : Nat) (k : Nat) : Nat := p + k

/-- `VecRangeIter::off_` after `k` increments (vecrange.h:195, 213-214). -/
def vOff (r : VecRange) : Nat → Nat
  | 0 => 0
  | k + 1 => vOff r k + r.stride

/-- How often a loop over a vector runs: it starts at offset 0 and ends at the first offset equal to
`stride*extent` (vecrange.h:234-248). With stride 0 the first offset is already the last. -/
def vCount (r : VecRange) : Nat := if r.stride = 0 then 0 else r.ext

/-- `MatRangeIter` after `k` increments: `count_` and `off_` (matrange.h:199-200, 229-243). -/
def mIt (r : MatRange) : Nat → Nat × Nat
  | 0 => (0, 0)
  | k + 1 =>
    let count := (mIt r k).1 + 1
    let off := (mIt r k).2 + r.rs
    if count % r.rn = 0 then (count, off - r.rs * r.rn + r.cs) else (count, off)

/-- The address of the element of a vector view reached after `k` increments. -/
def vIter (v : VView) (k : Nat) : Nat := v.off + vOff v.r k

/-- The address of the element of a matrix view reached after `k` increments. -/
def mIter (v : MView) (k : Nat) : Nat := v.off + (mIt v.r k).2

/-- The loop of `apply` (vec.cc:33-44, mat.cc:26-50): `n` times, starting with the `k`-th element,
`f(*it1,*it2)` and both iterators move on. -/
def applyLoop (f : K → K → K) (ia ib : Nat → Nat) (k : Nat) : Nat → List K → Res (List K)
  | 0, m => .ok m
  | n + 1, m =>
    (read m (ia k)).bind fun x =>
    (read m (ib k)).bind fun y =>
    (write m (ia k) (f x y)).bind fun m' => applyLoop f ia ib (k + 1) n m'

/-- `for(auto& el : v) el = f(el)` (vec.cc:89, 110, 123-130; mat.cc:109, 116, 144-151). -/
def mapLoop (f : K → K) (ia : Nat → Nat) (k : Nat) : Nat → List K → Res (List K)
  | 0, m => .ok m
  | n + 1, m =>
    (read m (ia k)).bind fun x =>
    (write m (ia k) (f x)).bind fun m' => mapLoop f ia (k + 1) n m'

/-- `apply(VecRef,it,f)` (vec.cc:33-44). -/
def applyV (f : K → K → K) (a : VView) (it : Nat → Nat) (m : List K) : Res (List K) :=
  applyLoop f (vIter a) it 0 (vCount a.r) m

/-- `apply(MatRef,it,f)` (mat.cc:39-50). -/
def applyM (f : K → K → K) (a : MView) (it : Nat → Nat) (m : List K) : Res (List K) :=
  applyLoop f (mIter a) it 0 a.r.size m

end

/-! ### Arithmetic in place -/

section
variable {K : Type*} [Field K] [DecidableEq K]

/-- BLAS `daxpy` with both increments 1: `y_i += alpha*x_i` (vec.cc:148-159, mat.cc:166-181).
External code; this is its documented effect. -/
def daxpy (n : Nat) (alpha : K) (x y : Nat) (m : List K) : Res (List K) :=
  applyLoop (fun u v => u + alpha * v) (ptr y) (ptr x) 0 n m

/-- BLAS `dscal` with increment 1 (vec.cc:85, mat.cc:105). External code; its documented effect. -/
def dscal (n : Nat) (alpha : K) (x : Nat) (m : List K) : Res (List K) :=
  mapLoop (fun u => alpha * u) (ptr x) 0 n m

/-- `operator&=` for vectors (`refAssign`, vec.cc:46-72). -/
def vAssign (a b : VView) (m : List K) : Res (List K) :=
  if b.r.stride = 1 then applyV (fun _ y => y) a (ptr b.off) m
  else applyV (fun _ y => y) a (vIter b) m

/-- `operator+=` for vectors (vec.cc:161-178). -/
def vAdd (a b : VView) (m : List K) : Res (List K) :=
  if b.r.stride = 1 then
    if a.r.stride = 1 then daxpy a.r.ext 1 b.off a.off m
    else applyV (fun x y => x + y) a (ptr b.off) m
  else applyV (fun x y => x + y) a (vIter b) m

/-- `operator-=` for vectors (vec.cc:180-197). -/
def vSub (a b : VView) (m : List K) : Res (List K) :=
  if b.r.stride = 1 then
    if a.r.stride = 1 then daxpy a.r.ext (-1) b.off a.off m
    else applyV (fun x y => x - y) a (ptr b.off) m
  else applyV (fun x y => x - y) a (vIter b) m

/-- `operator*=(VectorRef,Real)` (`multReal`, vec.cc:74-105). -/
def vScale (a : VView) (fac : K) (m : List K) : Res (List K) :=
  if a.r.stride = 1 then dscal a.r.ext fac a.off m
  else mapLoop (fun x => x * fac) (vIter a) 0 (vCount a.r) m

/-- `operator/=(VectorRef,Real)` (`divReal`, vec.cc:114-146). -/
def vDiv (a : VView) (fac : K) (m : List K) : Res (List K) :=
  if fac = 0 then .throw
  else if a.r.stride = 1 then mapLoop (fun x => x / fac) (ptr a.off) 0 a.r.ext m
  else mapLoop (fun x => x / fac) (vIter a) 0 (vCount a.r) m

/-- `operator&=` for matrices (mat.cc:52-92). -/
def mAssign (a b : MView) (m : List K) : Res (List K) :=
  if a.r = b.r ∧ b.r.isContiguous then
    applyLoop (fun _ y => y) (ptr a.off) (ptr b.off) 0 a.r.size m
  else applyM (fun _ y => y) a (mIter b) m

/-- `operator+=` for matrices (`add`, mat.cc:183-220). -/
def mAdd (a b : MView) (m : List K) : Res (List K) :=
  if b.r = a.r ∧ b.r.isContiguous then daxpy a.r.size 1 b.off a.off m
  else applyM (fun x y => x + y) a (mIter b) m

/-- `operator-=` for matrices (`subtract`, mat.cc:223-260). -/
def mSub (a b : MView) (m : List K) : Res (List K) :=
  if b.r = a.r ∧ b.r.isContiguous then daxpy a.r.size (-1) b.off a.off m
  else applyM (fun x y => x - y) a (mIter b) m

/-- `operator*=(MatrixRef,Real)` (`multReal`, mat.cc:94-128). -/
def mScale (a : MView) (fac : K) (m : List K) : Res (List K) :=
  if a.r.isContiguous then dscal a.r.size fac a.off m
  else mapLoop (fun x => x * fac) (mIter a) 0 a.r.size m

/-- `operator*=(CMatrixRef,Cplx)` (`multCplx`, mat.cc:113-134). -/
def mScaleC (a : MView) (fac : K) (m : List K) : Res (List K) :=
  mapLoop (fun x => x * fac) (mIter a) 0 a.r.size m

/-- `operator/=(MatrixRef,Real)` (`divReal`, mat.cc:136-164). Unlike the vector version it does not
look whether `fac` is zero; the model then follows `x/0 = 0`, and nothing is proved of that case. -/
def mDiv (a : MView) (fac : K) (m : List K) : Res (List K) :=
  if a.r.isContiguous then mapLoop (fun x => x / fac) (ptr a.off) 0 a.r.size m
  else mapLoop (fun x => x / fac) (mIter a) 0 a.r.size m

/-- `Matrix(ref)`, `M = ref` when `M` has no storage of its own that `ref` looks at
(`assignFromRef`, ten.h:688-695): the new matrix has normal strides and is put after everything
else in the memory. Returns the view of the new matrix. -/
def mNew (b : MView) (m : List K) : Res (MView × List K) :=
  let a := mat m.length b.r.rn b.r.cn
  (mAssign a b (m ++ List.replicate a.r.size 0)).map fun m' => (a, m')

/-- `M = ref` for a matrix `M` that keeps its storage (`assignFromRef`, ten.h:688-695, when
`dim(ref.range())` is the size `M` already has, so that `resize` moves nothing). `p` is where `M` is
stored. -/
def mReassign (p : Nat) (b : MView) (m : List K) : Res (MView × List K) :=
  let a := mat p b.r.rn b.r.cn
  (mAssign a b m).map fun m' => (a, m')

/-! ### Products -/

/-- `Σ_{j<n} f j`, where reading may fail. -/
def sumLoop (f : Nat → Res K) : Nat → Res K
  | 0 => .ok 0
  | n + 1 => (sumLoop f n).bind fun s => (f n).bind fun x => .ok (s + x)

/-- `operator*(VectorRefc,VectorRefc)` through BLAS `ddot` (vec.cc:214-223); `conj` is the identity
for real vectors and complex conjugation for complex ones (`zdotc`, vec.cc:225-234). -/
def dot (conj : K → K) (a b : VView) (m : List K) : Res K :=
  sumLoop (fun k => (read m (a.off + a.r.stride * k)).bind fun x =>
    (read m (b.off + b.r.stride * k)).bind fun y => .ok (conj x * y)) a.r.ext

/-- The values BLAS `?gemv` computes for one element of the result (without `beta*y`). -/
def gemvRow (trans : Bool) (alpha : K) (m n A lda x incx : Nat) (mem : List K) (i : Nat) : Res K :=
  (sumLoop (fun j =>
    (read mem (A + (if trans then j + lda * i else i + lda * j))).bind fun u =>
    (read mem (x + incx * j)).bind fun v => .ok (u * v)) (if trans then m else n)).bind fun s =>
  .ok (alpha * s)

/-- Writing the result of `?gemv`: `y_i := alpha (op(A) x)_i + beta y_i`, with `y` not read when
`beta` is zero. All sums are taken in the memory `mem` as it was (BLAS requires that `y` does not
overlap `A` and `x`). -/
def gemvLoop (trans : Bool) (alpha beta : K) (m n A lda x incx y incy : Nat) (mem : List K)
    (k : Nat) : Nat → List K → Res (List K)
  | 0, cur => .ok cur
  | c + 1, cur =>
    (gemvRow trans alpha m n A lda x incx mem k).bind fun s =>
    (if beta = 0 then .ok 0 else (read cur (y + incy * k)).bind fun v => .ok (beta * v)).bind fun t =>
    (write cur (y + incy * k) (s + t)).bind fun cur' =>
    gemvLoop trans alpha beta m n A lda x incx y incy mem (k + 1) c cur'

/-- BLAS `?gemv` for column-major storage with leading dimension `lda` (lapack_wrap.cc:249-316).
External code; its documented effect: wrong arguments are reported by `xerbla`, nothing happens when
`m` or `n` is zero. -/
def gemv (trans : Bool) (alpha beta : K) (m n A lda x incx y incy : Nat) (mem : List K) :
    Res (List K) :=
  if lda < max 1 m ∨ incx = 0 ∨ incy = 0 then .throw
  else if m = 0 ∨ n = 0 then .ok mem
  else gemvLoop trans alpha beta m n A lda x incx y incy mem 0 (if trans then n else m) mem

/-- `call_gemv` (mat.cc:374-397): the leading dimension is `m`; without `DEBUG` nothing asks whether
`M` is contiguous. -/
def callGemv (M : MView) (x y : VView) (alpha beta : K) (fromleft : Bool) (mem : List K) :
    Res (List K) :=
  let trans := if M.r.isTransposed then !fromleft else fromleft
  let m := if M.r.isTransposed then M.r.cn else M.r.rn
  let n := if M.r.isTransposed then M.r.rn else M.r.cn
  gemv trans alpha beta m n M.off m x.off x.r.stride y.off y.r.stride mem

/-- `mult(M,x,y,fromleft)` (mat.cc:402-416). -/
def mult (M : MView) (x y : VView) (fromleft : Bool) (mem : List K) : Res (List K) :=
  callGemv M x y 1 0 fromleft mem

/-- `multAdd(M,x,y,fromleft)` (mat.cc:435-449). -/
def multAdd (M : MView) (x y : VView) (fromleft : Bool) (mem : List K) : Res (List K) :=
  callGemv M x y 1 1 fromleft mem

/-- `multSub(M,x,y,fromleft)` (mat.cc:454-468). -/
def multSub (M : MView) (x y : VView) (fromleft : Bool) (mem : List K) : Res (List K) :=
  callGemv M x y (-1) 1 fromleft mem

/-- `mult(M,x,fromleft)` returning a vector (mat.cc:420-429): the result has the size of `x` and
`fromleft` is not passed on. The new vector is put after everything else in the memory. -/
def multNew (M : MView) (x : VView) (_fromleft : Bool) (mem : List K) : Res (VView × List K) :=
  let y := vec mem.length x.r.ext
  (mult M x y false (mem ++ List.replicate x.r.ext 0)).map fun m' => (y, m')

/-- `operator*(MatrixRefc,VectorRefc)` (mat_impl.h:148-164). -/
def matVec (M : MView) (x : VView) (mem : List K) : Res (VView × List K) :=
  let y := vec mem.length M.r.rn
  (mult M x y false (mem ++ List.replicate M.r.rn 0)).map fun m' => (y, m')

/-- `operator*(VectorRefc,MatrixRefc)` (mat_impl.h:166-184). -/
def vecMat (x : VView) (M : MView) (mem : List K) : Res (VView × List K) :=
  let y := vec mem.length M.r.cn
  (mult M x y true (mem ++ List.replicate M.r.cn 0)).map fun m' => (y, m')

end

end Verif.Views
