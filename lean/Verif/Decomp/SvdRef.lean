import Verif.Base
import Mathlib.Analysis.RCLike.Basic
import Mathlib.LinearAlgebra.Matrix.Hermitian
import Mathlib.Data.Matrix.Diagonal
import Mathlib.Data.Real.Sqrt

/-!
# Dense matrix decompositions: `diagHermitian`, `QR` and the built-in SVD (C93)

`/repo/itensor/tensor/algs.cc`, `algs_impl.h`, `algs.h`.

Exact arithmetic over `𝕜`, which is ℝ for `Matrix` and ℂ for `CMatrix`; a `static_assert` keeps the
two apart (algs_impl.h:100-101, 296-297). The branches `if(isCplx(M))` of the source take the
complex conjugate in the complex case only; the conjugate of a real number is the number, so the
model has one branch with `conj`. LAPACK is a parameter (`Lapack`): a routine either reports an
error (`info != 0`, here `none`) or returns matrices. How a matrix is laid out in memory is the
subject of C94 (`Decomp/Layout.lean`).
-/

namespace Verif.SvdRef

open Matrix

/-- The LAPACK routines behind the decompositions of dense matrices. `none` is `info != 0`.
* `eig`: `dsyev`/`zheev` called by `detail::hermitianDiag` (algs.cc:33-46);
* `qr m n k`: `geqrf` followed by `orgqr`/`ungqr` for `k` columns, called by `detail::QR`
  (algs.cc:48-80), for a matrix with `m` rows and `n` columns. -/
structure Lapack (𝕜 : Type*) where
  eig : (n : ℕ) → Matrix (Fin n) (Fin n) 𝕜 → Option (Matrix (Fin n) (Fin n) 𝕜 × (Fin n → ℝ))
  qr : (m n k : ℕ) → Matrix (Fin m) (Fin n) 𝕜 →
    Option (Matrix (Fin m) (Fin k) 𝕜 × Matrix (Fin k) (Fin n) 𝕜)

variable {𝕜 : Type*} [RCLike 𝕜]

/-- `diagHermitian(M,U,d)` for a square matrix (algs_impl.h:96-143): an empty matrix is refused;
LAPACK gets `-M` so that the values come from the largest to the smallest, and their signs are
corrected afterwards. -/
noncomputable def diagHermitian (L : Lapack 𝕜) {n : ℕ} (M : Matrix (Fin n) (Fin n) 𝕜) :
    Res (Matrix (Fin n) (Fin n) 𝕜 × (Fin n → ℝ)) :=
  if n < 1 then .throw
  else
    match L.eig n (-M) with
    | none => .throw
    | some (U, d) => .ok (U, fun i => d i * (-1))

/-! ### QR -/

/-- `Rrows` of `QR` (algs_impl.h:301-312). -/
def rrows (complete : Bool) (m n : ℕ) : ℕ :=
  if n > m then m else if complete then m else n

/-- The body of the loop over the diagonal (algs_impl.h:333-341): row `i` of `R` and column `i` of
`Q` change sign if the diagonal element is negative. -/
noncomputable def posStep {m n k : ℕ} (QR : Matrix (Fin m) (Fin k) 𝕜 × Matrix (Fin k) (Fin n) 𝕜) (i : ℕ) :
    Matrix (Fin m) (Fin k) 𝕜 × Matrix (Fin k) (Fin n) 𝕜 :=
  if h : i < k ∧ i < n then
    if RCLike.re (QR.2 ⟨i, h.1⟩ ⟨i, h.2⟩) < 0 then
      (Matrix.of fun a b => if b.val = i then QR.1 a b * (-1) else QR.1 a b,
        Matrix.of fun b c => if b.val = i then QR.2 b c * (-1) else QR.2 b c)
    else QR
  else QR

/-- The option `PositiveDiagonal` (algs_impl.h:328-343): the loop over `diagSize` elements. -/
noncomputable def posLoop {m n k : ℕ} (QR : Matrix (Fin m) (Fin k) 𝕜 × Matrix (Fin k) (Fin n) 𝕜) :
    Matrix (Fin m) (Fin k) 𝕜 × Matrix (Fin k) (Fin n) 𝕜 :=
  (List.range (if k < n then k else n)).foldl posStep QR

/-- `QR(A,Q,R,{Complete,PositiveDiagonal})` (algs_impl.h:284-345). If there are more columns than
rows, `Q` has room for `n` columns while LAPACK runs and keeps `m` of them (`reduceCols`,
algs_impl.h:326-327). -/
noncomputable def qr (L : Lapack 𝕜) (complete positive : Bool) {m n : ℕ} (A : Matrix (Fin m) (Fin n) 𝕜) :
    Res (Matrix (Fin m) (Fin (rrows complete m n)) 𝕜 ×
      Matrix (Fin (rrows complete m n)) (Fin n) 𝕜) :=
  if m < 1 ∨ n < 1 then .throw
  else
    match L.qr m n (rrows complete m n) A with
    | none => .throw
    | some QR => .ok (if positive then posLoop QR else QR)

/-! ### The built-in SVD -/

/-- The loop of `checkSVDDone` (algs.cc:491-494): the first place from `start` on with a value below
the bound. -/
noncomputable def scan {N : ℕ} (D : Fin N → ℝ) (t : ℝ) : (fuel start : ℕ) → ℕ
  | 0, s => s
  | f + 1, s =>
    if h : s < N then
      open Classical in if D ⟨s, h⟩ < t then s else scan D t f (s + 1)
    else s

/-- `checkSVDDone(D,thresh)` (algs.cc:480-501). -/
noncomputable def checkDone {N : ℕ} (D : Fin N → ℝ) (thresh : ℝ) : Bool × ℕ :=
  open Classical in
  if h : N ≤ 1 ∨ thresh ≤ 0 then (true, 1)
  else
    let D1t := D ⟨0, by omega⟩ * thresh
    let start := scan D D1t N 1
    if start ≥ N - 1 then (true, start) else (false, start)

/-- What a singular value decomposition leaves in `U`, `D` and `V`, with `k` singular values. -/
structure Out (𝕜 : Type*) (m n k : ℕ) where
  U : Matrix (Fin m) (Fin k) 𝕜
  D : Fin k → ℝ
  V : Matrix (Fin n) (Fin k) 𝕜

/-- `columns(U,start,ncols(U))` (slicemat.h:60-68). -/
def cols {m k : ℕ} (U : Matrix (Fin m) (Fin k) 𝕜) (start : ℕ) : Matrix (Fin m) (Fin (k - start)) 𝕜 :=
  Matrix.of fun a j => U a ⟨start + j.val, by omega⟩

/-- `u &= W` for `u` the columns of `U` from `start` on. -/
def setCols {m k : ℕ} (U : Matrix (Fin m) (Fin k) 𝕜) (start : ℕ)
    (W : Matrix (Fin m) (Fin (k - start)) 𝕜) : Matrix (Fin m) (Fin k) 𝕜 :=
  Matrix.of fun a j => if h : start ≤ j.val then W a ⟨j.val - start, by omega⟩ else U a j

/-- The values written through `d`, the part of `D` from `start` on (algs.cc:573). -/
def setVals {k : ℕ} (D : Fin k → ℝ) (start : ℕ) (d : Fin (k - start) → ℝ) : Fin k → ℝ :=
  fun j => if h : start ≤ j.val then d ⟨j.val - start, by omega⟩ else D j

/-- `V &= tempV` (algs.cc:533): copied element by element. -/
def assign {n k k' : ℕ} (V : Matrix (Fin n) (Fin k) 𝕜) (Q : Matrix (Fin n) (Fin k') 𝕜) :
    Matrix (Fin n) (Fin k) 𝕜 :=
  Matrix.of fun a j => if h : j.val < k' then Q a ⟨j.val, h⟩ else V a j

/-- `D(i) = std::real(R(i,i))` (algs.cc:534-537). -/
def diagR {k k' : ℕ} (R : Matrix (Fin k') (Fin k) 𝕜) : Fin k → ℝ :=
  fun i => if h : i.val < k' then RCLike.re (R ⟨i.val, h⟩ i) else 0

/-- `SVDRefImpl(M,U,D,V,args)` (algs.cc:503-585) for a matrix with `m` rows. `thresh` is
`SVDThreshold`. `none`: the fuel is used up. -/
noncomputable def impl (L : Lapack 𝕜) (thresh : ℝ) :
    (fuel m n : ℕ) → Matrix (Fin m) (Fin n) 𝕜 → Option (Res (Out 𝕜 m n m))
  | 0, _, _, _ => none
  | f + 1, m, n, M =>
    let rho := M * Mᴴ
    match diagHermitian L rho with
    | .throw => some .throw
    | .ub => some .ub
    | .ok (U, _) =>
      let V := Mᴴ * U
      match qr L false true V with
      | .throw => some .throw
      | .ub => some .ub
      | .ok (tempV, R) =>
        let V := assign V tempV
        let D := diagR R
        let c := checkDone D thresh
        if c.1 then some (.ok ⟨U, D, V⟩)
        else
          let u := cols U c.2
          let v := cols V c.2
          let b := uᴴ * (M * v)
          match impl L thresh f (m - c.2) (m - c.2) b with
          | none => none
          | some .throw => some .throw
          | some .ub => some .ub
          | some (.ok o) =>
            some (.ok ⟨setCols U c.2 (u * o.U), setVals D c.2 o.D, setCols V c.2 (v * o.V)⟩)

/-- A function that decomposes a matrix with at most as many rows as columns. -/
abbrev Method (𝕜 : Type*) := (m n : ℕ) → Matrix (Fin m) (Fin n) 𝕜 → Option (Res (Out 𝕜 m n m))

/-- The choice of the method in `SVDRef` (algs.cc:612-624). -/
noncomputable def choose (L : Lapack 𝕜) (thresh : ℝ) (lapack : Method 𝕜) (method : String)
    (fuel m n : ℕ) (M : Matrix (Fin m) (Fin n) 𝕜) : Option (Res (Out 𝕜 m n m)) :=
  if method = "ITensor" then impl L thresh fuel m n M
  else if method = "automatic" ∨ method = "gesdd" ∨ method = "gesvd" then lapack m n M
  else some .throw

/-- `SVD(M,U,D,V,args)` (algs_impl.h:203-222) and `SVDRef` (algs.cc:587-631): a matrix with more rows
than columns is transposed, `U` and `V` change places, and both are conjugated. The number of
singular values is the first component. `lapack` is `SVDRefLAPACK`. -/
noncomputable def svd (L : Lapack 𝕜) (thresh : ℝ) (lapack : Method 𝕜) (method : String) (fuel : ℕ)
    {m n : ℕ} (M : Matrix (Fin m) (Fin n) 𝕜) : Option (Res (Σ k, Out 𝕜 m n k)) :=
  if m > n then
    (choose L thresh lapack method fuel n m Mᵀ).map
      (Res.map fun o => ⟨n, ⟨o.V.map star, o.D, o.U.map star⟩⟩)
  else (choose L thresh lapack method fuel m n M).map (Res.map fun o => ⟨m, o⟩)

/-! ### Random orthogonal matrices -/

/-- `reduceCols(M,c)` (mat_impl.h:21-29): storage is by columns, so `resize` keeps the first columns;
columns that were not there would be zero. -/
def reduceCols {r k : ℕ} (Q : Matrix (Fin r) (Fin k) 𝕜) (c : ℕ) : Matrix (Fin r) (Fin c) 𝕜 :=
  Matrix.of fun a j => if h : j.val < k then Q a ⟨j.val, h⟩ else 0

/-- A matrix returned as one with `n` rows and `m` columns. -/
def retype {r c : ℕ} (Q : Matrix (Fin r) (Fin c) 𝕜) (n m : ℕ) : Matrix (Fin n) (Fin m) 𝕜 :=
  Matrix.of fun a b => if h : a.val < r ∧ b.val < c then Q ⟨a.val, h.1⟩ ⟨b.val, h.2⟩ else 0

/-- `randomOrthog(n,m)` (mps/mps.cc:203-220); `M` is the matrix of random numbers of `randn(r,r)`. -/
noncomputable def randomOrthog (L : Lapack 𝕜) (n m : ℕ)
    (M : Matrix (Fin (max n m)) (Fin (max n m)) 𝕜) : Res (Matrix (Fin n) (Fin m) 𝕜) :=
  (qr L false true M).map fun QR =>
    if m < n then retype (reduceCols QR.1 m) n m
    else if n < m then retype (reduceCols QR.1 n)ᵀ n m
    else retype QR.1 n m

end Verif.SvdRef
