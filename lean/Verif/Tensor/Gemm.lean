import Verif.Tensor.RangeLemmas
import Mathlib.Algebra.QuadraticAlgebra.Defs
import Mathlib.Algebra.BigOperators.Group.Finset.Basic
import Mathlib.Algebra.BigOperators.Ring.Finset

/-!
# Matrix references and `gemm` (`/repo/itensor/tensor/matrange.h`, `gemm.cc`, `lapack_wrap.cc`), C20

Numbers are elements of an arbitrary commutative ring `K` (exact arithmetic).  Memory is a function
from integer addresses (counted in elements from the data pointer) to values.  The BLAS routine
`dgemm`/`zgemm` is represented by its documented effect.
-/

namespace Verif.Tensor

open Finset

/-- `MatRangeT` (matrange.h:34-54): rows, row stride, columns, column stride. -/
structure MatRange where
  rn : Nat
  rs : Nat
  cn : Nat
  cs : Nat
  deriving DecidableEq, Repr

namespace MatRange

/-- `MatRangeT(rn,cn)` (matrange.h:48-51). -/
def mk2 (rn cn : Nat) : MatRange := ⟨rn, 1, cn, rn⟩

/-- `transpose` (matrange.h:124-129). -/
def transpose (r : MatRange) : MatRange := ⟨r.cn, r.cs, r.rn, r.rs⟩

/-- `isTransposed` (matrange.h:171). -/
def isTransposed (r : MatRange) : Bool := r.rs == r.cn && r.cs == 1

/-- `isNormal` (matrange.h:175). -/
def isNormal (r : MatRange) : Bool := r.rs == 1 && r.cs == r.rn

/-- `isContiguous` (matrange.h:179). -/
def isContiguous (r : MatRange) : Bool := r.isNormal || r.isTransposed

/-- Number of elements (`M.size()`). -/
def size (r : MatRange) : Nat := r.rn * r.cn

/-- Address of element `(i,j)`. -/
def at_ (r : MatRange) (i j : Nat) : Int := ((i * r.rs + j * r.cs : Nat) : Int)

end MatRange

/-- Complex numbers over `K`. -/
abbrev Cx (K : Type*) [CommRing K] := QuadraticAlgebra K (-1) 0

section
variable {K : Type*} [CommRing K] [DecidableEq K]

/-- The BLAS routine `?gemm(order=ColMajor, transa, transb, m, n, k, alpha, A, lda, B, ldb, beta, C,
ldc)` as documented: `C := alpha op(A) op(B) + beta C` on the `m` by `n` matrix `C` of leading
dimension `ldc`; `C` is not read when `beta` is zero. (External code; this is its specification.) -/
def blasGemm (ta tb : Bool) (m n k : Nat) (alpha : K) (A : Int → K) (lda : Nat) (B : Int → K)
    (ldb : Nat) (beta : K) (C : Int → K) (ldc : Nat) : Int → K := fun a =>
  if 0 ≤ a ∧ a.toNat % ldc < m ∧ a.toNat / ldc < n then
    let i := a.toNat % ldc
    let j := a.toNat / ldc
    alpha * ∑ l ∈ range k,
      (if ta then A ((l + i * lda : Nat) : Int) else A ((i + l * lda : Nat) : Int)) *
      (if tb then B ((j + l * ldb : Nat) : Int) else B ((l + j * ldb : Nat) : Int)) +
    (if beta = 0 then 0 else beta * C a)
  else C a

/-- `gemm_wrapper` (lapack_wrap.cc:117-165 for doubles, 167-230 for complex numbers). -/
def gemmWrapper (ta tb : Bool) (m n k : Nat) (alpha : K) (A B : Int → K) (beta : K) (C : Int → K) :
    Int → K :=
  blasGemm ta tb m n k alpha A (if ta then k else m) B (if tb then n else k) beta C m

/-- `gemm_impl` for one value type (gemm.cc:232-250; and 165-182 with `ITENSOR_USE_ZGEMM`). -/
def gemmImpl (Ar : MatRange) (A : Int → K) (Br : MatRange) (B : Int → K) (C : Int → K)
    (alpha beta : K) : Int → K :=
  gemmWrapper Ar.isTransposed Br.isTransposed Ar.rn Br.cn Ar.cn alpha A B beta C

/-- `gemm(A,B,C,alpha,beta)` (gemm.cc:252-288) for one value type. The size checks are DEBUG only. -/
def gemm (Ar : MatRange) (A : Int → K) (Br : MatRange) (B : Int → K) (Cr : MatRange) (C : Int → K)
    (alpha beta : K) : Int → K :=
  if Cr.isTransposed then gemmImpl Br.transpose B Ar.transpose A C alpha beta
  else gemmImpl Ar A Br B C alpha beta

/-- Element data of a matrix that is real or complex. -/
inductive Arr (K : Type*) [CommRing K] where
  | real (m : Int → K)
  | cplx (m : Int → Cx K)

namespace Arr

/-- Element values as complex numbers (specification). -/
def val : Arr K → Int → Cx K
  | real m, a => .C (m a)
  | cplx m, a => m a

/-- The array handed to `dgemm` for this operand in a task (gemm.cc:118-160): the data itself if
real, otherwise a buffer of `n` elements filled by `cplxToRealBuf` (gemm.cc:54-65) with the real
(`part = 0`) or imaginary (`part = 1`) parts. -/
def buf : Arr K → Nat → Nat → Int → K
  | real m, _, _ => m
  | cplx m, part, n => fun a =>
      if 0 ≤ a ∧ a < n then (if part = 0 then (m a).re else (m a).im) else 0

end Arr

/-- `dgemmTask` (gemm.cc:22-52). -/
structure DgemmTask (K : Type*) where
  copyToC : Bool := false
  copyFromC : Bool := false
  Apart : Nat := 0
  Bpart : Nat := 0
  Cpart : Nat := 0
  alpha : K
  beta : K

/-- Constructor with five arguments (gemm.cc:32-40). -/
def DgemmTask.mk5 (Ap Bp Cp : Nat) (a b : K) : DgemmTask K :=
  { Apart := Ap, Bpart := Bp, Cpart := Cp, alpha := a, beta := b, copyFromC := decide (b ≠ 0) }

/-- Constructor with four arguments (gemm.cc:42-47). -/
def DgemmTask.mk4 (Ap Bp Cp : Nat) (a : K) : DgemmTask K :=
  { Apart := Ap, Bpart := Bp, Cpart := Cp, alpha := a, beta := 1 }

/-- Constructor with one argument (gemm.cc:49-51). -/
def DgemmTask.mk1 (Cp : Nat) : DgemmTask K := { copyToC := true, Cpart := Cp, alpha := 0, beta := 0 }

/-- One iteration of the task loop of `gemm_emulator` (gemm.cc:110-162). The state is the real buffer
`cb` and the complex result memory. `cplxToRealBuf`/`realBufToCplx` (gemm.cc:54-77) move `C.size()`
elements. -/
def emuStep (Ar : MatRange) (A : Arr K) (Br : MatRange) (B : Arr K) (Cn : Nat)
    (s : (Int → K) × (Int → Cx K)) (t : DgemmTask K) : (Int → K) × (Int → Cx K) :=
  if t.copyToC then
    (s.1, fun a => if 0 ≤ a ∧ a < Cn then
      (if t.Cpart = 0 then ⟨s.1 a, (s.2 a).im⟩ else ⟨(s.2 a).re, s.1 a⟩) else s.2 a)
  else
    let cb := if t.copyFromC then fun (a : Int) =>
        if 0 ≤ a ∧ a < Cn then (if t.Cpart = 0 then (s.2 a).re else (s.2 a).im) else s.1 a
      else s.1
    (gemmWrapper Ar.isTransposed Br.isTransposed Ar.rn Br.cn Ar.cn t.alpha (A.buf t.Apart Ar.size)
      (B.buf t.Bpart Br.size) t.beta cb, s.2)

/-- `gemm_emulator` (gemm.cc:79-163); `junk` is the uninitialised buffer from `vector_no_init`. -/
def gemmEmulator (Ar : MatRange) (A : Arr K) (Br : MatRange) (B : Arr K) (Cn : Nat)
    (C : Int → Cx K) (junk : Int → K) (tasks : List (DgemmTask K)) : Int → Cx K :=
  (tasks.foldl (emuStep Ar A Br B Cn) (junk, C)).2

/-- The task lists of `gemm_impl` for the mixes of real and complex (gemm.cc:184-192, 205-211,
222-228). -/
def emuTasks (alpha beta : K) : Arr K → Arr K → List (DgemmTask K)
  | .cplx _, .cplx _ =>
    [.mk5 0 0 0 alpha beta, .mk4 1 1 0 (-alpha), .mk1 0, .mk5 1 0 1 alpha beta, .mk4 0 1 1 alpha,
      .mk1 1]
  | .real _, _ => [.mk5 0 0 0 alpha beta, .mk1 0, .mk5 0 1 1 alpha beta, .mk1 1]
  | .cplx _, .real _ => [.mk5 0 0 0 alpha beta, .mk1 0, .mk5 1 0 1 alpha beta, .mk1 1]

/-- `gemm_impl` when at least one of `A`, `B` is complex, without `ITENSOR_USE_ZGEMM`
(gemm.cc:165-230). -/
def gemmImplCx (Ar : MatRange) (A : Arr K) (Br : MatRange) (B : Arr K) (Cr : MatRange)
    (C : Int → Cx K) (junk : Int → K) (alpha beta : K) : Int → Cx K :=
  gemmEmulator Ar A Br B Cr.size C junk (emuTasks alpha beta A B)

/-- `gemm` (gemm.cc:252-288) for a complex result. -/
def gemmCx (Ar : MatRange) (A : Arr K) (Br : MatRange) (B : Arr K) (Cr : MatRange)
    (C : Int → Cx K) (junk : Int → K) (alpha beta : K) : Int → Cx K :=
  if Cr.isTransposed then gemmImplCx Br.transpose B Ar.transpose A Cr.transpose C junk alpha beta
  else gemmImplCx Ar A Br B Cr C junk alpha beta

/-! ### lemmas -/

theorem isTransposed_at (r : MatRange) (h : r.isContiguous = true) (i j : Nat) (hi : i < r.rn)
    (hj : j < r.cn) :
    r.at_ i j = if r.isTransposed then ((j + i * r.cn : Nat) : Int) else ((i + j * r.rn : Nat) : Int) := by
  unfold MatRange.isContiguous at h
  unfold MatRange.at_
  by_cases ht : r.isTransposed = true
  · rw [if_pos ht]
    simp only [MatRange.isTransposed, Bool.and_eq_true, beq_iff_eq] at ht
    rw [ht.1, ht.2]; congr 1; ring
  · rw [if_neg ht]
    have hn : r.isNormal = true := by simpa [ht] using h
    simp only [MatRange.isNormal, Bool.and_eq_true, beq_iff_eq] at hn
    rw [hn.1, hn.2]; congr 1; ring

/-- Effect of `gemm_impl` on the element `(i,j)`, i.e. address `i + j*m`, and elsewhere. -/
theorem gemmWrapper_in (Ar Br : MatRange) (hA : Ar.isContiguous = true) (hB : Br.isContiguous = true)
    (hk : Ar.cn = Br.rn) (alpha beta : K) (A B C : Int → K) (i j : Nat) (hi : i < Ar.rn)
    (hj : j < Br.cn) :
    gemmWrapper Ar.isTransposed Br.isTransposed Ar.rn Br.cn Ar.cn alpha A B beta C
      ((i + j * Ar.rn : Nat) : Int) =
      alpha * ∑ l ∈ range Ar.cn, A (Ar.at_ i l) * B (Br.at_ l j) +
        beta * C ((i + j * Ar.rn : Nat) : Int) := by
  have hm : (i + j * Ar.rn) % Ar.rn = i := by
    rw [Nat.add_mul_mod_self_right, Nat.mod_eq_of_lt hi]
  have hd : (i + j * Ar.rn) / Ar.rn = j := by
    rw [Nat.add_mul_div_right _ _ (by omega), Nat.div_eq_of_lt hi, Nat.zero_add]
  unfold gemmWrapper blasGemm
  simp only [Int.toNat_natCast, hm, hd]
  rw [if_pos ⟨by positivity, hi, hj⟩]
  congr 1
  · congr 1
    apply sum_congr rfl
    intro l hl
    have hl := mem_range.1 hl
    rw [isTransposed_at Ar hA i l hi hl, isTransposed_at Br hB l j (by omega) hj]
    congr 1
    · by_cases h : Ar.isTransposed = true <;> simp [h]
    · by_cases h : Br.isTransposed = true <;> simp [h, hk]
  · by_cases h : beta = 0 <;> simp [h]

theorem gemmWrapper_out (ta tb : Bool) (m n k : Nat) (alpha beta : K) (A B C : Int → K) (a : Int)
    (h : a < 0 ∨ (m * n : Nat) ≤ a) :
    gemmWrapper ta tb m n k alpha A B beta C a = C a := by
  unfold gemmWrapper blasGemm
  rw [if_neg]
  rintro ⟨h0, h1, h2⟩
  rcases h with h | h
  · omega
  · have : a.toNat < m * n := by
      have := Nat.mod_add_div a.toNat m
      calc a.toNat = a.toNat % m + m * (a.toNat / m) := this.symm
        _ < m + m * (a.toNat / m) := by omega
        _ = m * (a.toNat / m + 1) := by ring
        _ ≤ m * n := Nat.mul_le_mul_left _ h2
    omega

theorem at_bounds (r : MatRange) (h : r.isContiguous = true) (i j : Nat) (hi : i < r.rn)
    (hj : j < r.cn) : 0 ≤ r.at_ i j ∧ r.at_ i j < r.size := by
  have key : ∀ a b m n : Nat, a < m → b < n → a + b * m < m * n := fun a b m n ha hb => by
    calc a + b * m < m + b * m := by omega
      _ = m * (b + 1) := by ring
      _ ≤ m * n := Nat.mul_le_mul_left _ hb
  rw [isTransposed_at r h i j hi hj]
  unfold MatRange.size
  split
  · have := key j i r.cn r.rn hj hi
    rw [Nat.mul_comm r.cn r.rn] at this
    exact ⟨by positivity, by exact_mod_cast this⟩
  · have := key i j r.rn r.cn hi hj
    exact ⟨by positivity, by exact_mod_cast this⟩

/-- The part of an operand selected by a task, at one address. -/
def Arr.part : Arr K → Nat → Int → K
  | .real m, _, a => m a
  | .cplx m, p, a => if p = 0 then (m a).re else (m a).im

omit [DecidableEq K] in
theorem buf_at (r : MatRange) (h : r.isContiguous = true) (A : Arr K) (p i j : Nat) (hi : i < r.rn)
    (hj : j < r.cn) : A.buf p r.size (r.at_ i j) = A.part p (r.at_ i j) := by
  cases A with
  | real m => rfl
  | cplx m =>
    simp only [Arr.buf, Arr.part]
    rw [if_pos (at_bounds r h i j hi hj)]

/-- A real product inside a task. -/
theorem task_in (Ar Br : MatRange) (hA : Ar.isContiguous = true) (hB : Br.isContiguous = true)
    (hk : Ar.cn = Br.rn) (alpha beta : K) (A B : Arr K) (pa pb : Nat) (C : Int → K) (i j : Nat)
    (hi : i < Ar.rn) (hj : j < Br.cn) :
    gemmWrapper Ar.isTransposed Br.isTransposed Ar.rn Br.cn Ar.cn alpha (A.buf pa Ar.size)
      (B.buf pb Br.size) beta C ((i + j * Ar.rn : Nat) : Int) =
      alpha * ∑ l ∈ range Ar.cn, A.part pa (Ar.at_ i l) * B.part pb (Br.at_ l j) +
        beta * C ((i + j * Ar.rn : Nat) : Int) := by
  rw [gemmWrapper_in Ar Br hA hB hk alpha beta _ _ _ i j hi hj]
  congr 2
  apply sum_congr rfl
  intro l hl
  have hl := mem_range.1 hl
  rw [buf_at Ar hA A pa i l hi hl, buf_at Br hB B pb l j (by omega) hj]

omit [DecidableEq K] in
theorem re_finsum (s : Finset Nat) (f : Nat → Cx K) : (∑ l ∈ s, f l).re = ∑ l ∈ s, (f l).re := by
  classical
  induction s using Finset.induction_on with
  | empty => simp
  | insert a s ha ih => rw [sum_insert ha, sum_insert ha, QuadraticAlgebra.re_add, ih]

omit [DecidableEq K] in
theorem im_finsum (s : Finset Nat) (f : Nat → Cx K) : (∑ l ∈ s, f l).im = ∑ l ∈ s, (f l).im := by
  classical
  induction s using Finset.induction_on with
  | empty => simp
  | insert a s ha ih => rw [sum_insert ha, sum_insert ha, QuadraticAlgebra.im_add, ih]

/-- not both operands are real -/
def Arr.someCplx : Arr K → Arr K → Prop
  | .real _, .real _ => False
  | _, _ => True

theorem gemmImplCx_in (Ar Br Cr : MatRange) (hA : Ar.isContiguous = true)
    (hB : Br.isContiguous = true) (hk : Ar.cn = Br.rn) (hs : Cr.size = Ar.rn * Br.cn)
    (A B : Arr K) (hne : A.someCplx B) (C : Int → Cx K) (junk : Int → K) (alpha beta : K) (i j : Nat)
    (hi : i < Ar.rn) (hj : j < Br.cn) :
    gemmImplCx Ar A Br B Cr C junk alpha beta ((i + j * Ar.rn : Nat) : Int) =
      .C alpha * ∑ l ∈ range Ar.cn, A.val (Ar.at_ i l) * B.val (Br.at_ l j) +
        .C beta * C ((i + j * Ar.rn : Nat) : Int) := by
  have ha : 0 ≤ ((i + j * Ar.rn : Nat) : Int) ∧ ((i + j * Ar.rn : Nat) : Int) < Cr.size := by
    have : i + j * Ar.rn < Ar.rn * Br.cn := by
      calc i + j * Ar.rn < Ar.rn + j * Ar.rn := by omega
        _ = Ar.rn * (j + 1) := by ring
        _ ≤ Ar.rn * Br.cn := Nat.mul_le_mul_left _ hj
    rw [hs]
    exact ⟨by positivity, by exact_mod_cast this⟩
  have T := fun al be pa pb c => task_in Ar Br hA hB hk al be A B pa pb c i j hi hj
  unfold gemmImplCx gemmEmulator
  generalize hadr : ((i + j * Ar.rn : Nat) : Int) = a at *
  by_cases hb : beta = 0
  all_goals
    cases A with
    | real A =>
      cases B with
      | real B => exact hne.elim
      | cplx B =>
        apply QuadraticAlgebra.ext <;>
          simp [emuTasks, emuStep, DgemmTask.mk5, DgemmTask.mk4, DgemmTask.mk1, T, ha, hb, Arr.part,
            Arr.val, re_finsum, im_finsum, mul_sum, sum_add_distrib]
    | cplx A =>
      cases B with
      | real B =>
        apply QuadraticAlgebra.ext <;>
          simp [emuTasks, emuStep, DgemmTask.mk5, DgemmTask.mk4, DgemmTask.mk1, T, ha, hb, Arr.part,
            Arr.val, re_finsum, im_finsum, mul_sum, sum_add_distrib]
      | cplx B =>
        apply QuadraticAlgebra.ext <;>
          simp [emuTasks, emuStep, DgemmTask.mk5, DgemmTask.mk4, DgemmTask.mk1, T, ha, hb, Arr.part,
            Arr.val, re_finsum, im_finsum, mul_sum, sum_add_distrib, mul_add] <;> ring

theorem gemmImplCx_out (Ar Br Cr : MatRange) (A B : Arr K) (C : Int → Cx K) (junk : Int → K)
    (alpha beta : K) (a : Int) (h : a < 0 ∨ (Cr.size : Int) ≤ a) :
    gemmImplCx Ar A Br B Cr C junk alpha beta a = C a := by
  have hn : ¬ (0 ≤ a ∧ a < (Cr.size : Int)) := by omega
  unfold gemmImplCx gemmEmulator
  cases A <;> cases B <;>
    simp [emuTasks, emuStep, DgemmTask.mk5, DgemmTask.mk4, DgemmTask.mk1, hn]

end

/-! ## C20 -/

/-- **C20.** `gemm` on real matrices: for contiguous (normal or transposed) views of matching sizes,
every element `(i,j)` of the result view becomes `alpha * (A B)(i,j) + beta * C(i,j)`, and no memory
outside the result's elements is touched. -/
theorem C20_gemm {K : Type*} [CommRing K] [DecidableEq K] (Ar Br Cr : MatRange)
    (hA : Ar.isContiguous = true) (hB : Br.isContiguous = true) (hC : Cr.isContiguous = true)
    (hk : Ar.cn = Br.rn) (hr : Cr.rn = Ar.rn) (hc : Cr.cn = Br.cn) (A B C : Int → K)
    (alpha beta : K) :
    (∀ i j, i < Cr.rn → j < Cr.cn → gemm Ar A Br B Cr C alpha beta (Cr.at_ i j) =
      alpha * ∑ l ∈ range Ar.cn, A (Ar.at_ i l) * B (Br.at_ l j) + beta * C (Cr.at_ i j)) ∧
    ∀ a : Int, (a < 0 ∨ ((Cr.rn * Cr.cn : Nat) : Int) ≤ a) →
      gemm Ar A Br B Cr C alpha beta a = C a := by
  have ct : ∀ r : MatRange, r.isContiguous = true → r.transpose.isContiguous = true := by
    intro r h
    simp only [MatRange.isContiguous, MatRange.isNormal, MatRange.isTransposed, MatRange.transpose,
      Bool.or_eq_true, Bool.and_eq_true, beq_iff_eq] at h ⊢
    omega
  have at_t : ∀ (r : MatRange) i j, r.transpose.at_ i j = r.at_ j i := by
    intro r i j; simp only [MatRange.at_, MatRange.transpose]; congr 1; ring
  constructor
  · intro i j hi hj
    unfold gemm
    rw [isTransposed_at Cr hC i j hi hj]
    by_cases ht : Cr.isTransposed = true
    · rw [if_pos ht, if_pos ht]
      have := gemmWrapper_in Br.transpose Ar.transpose (ct _ hB) (ct _ hA) hk.symm alpha beta B A C j i
        (show j < Br.cn by omega) (show i < Ar.rn by omega)
      unfold gemmImpl
      rw [hc]
      refine this.trans ?_
      congr 2
      show ∑ l ∈ range Br.rn, _ = _
      rw [← hk]
      refine sum_congr rfl fun l _ => ?_
      rw [at_t, at_t, mul_comm]
    · rw [if_neg ht, if_neg ht, hr]
      exact gemmWrapper_in Ar Br hA hB hk alpha beta A B C i j (by omega) (by omega)
  · intro a ha
    unfold gemm
    split
    · exact gemmWrapper_out _ _ _ _ _ _ _ _ _ _ _ (by
        show a < 0 ∨ ((Br.cn * Ar.rn : Nat) : Int) ≤ a
        rw [← hr, ← hc, Nat.mul_comm]; exact ha)
    · exact gemmWrapper_out _ _ _ _ _ _ _ _ _ _ _ (by rw [← hr, ← hc]; exact ha)

/-- **C20.** `gemm` with a complex result, assembled from real matrix products on real and imaginary
parts through scratch buffers: for every mix of real and complex operands that is not real times
real, every normal or transposed view of `A`, `B` and `C` and whatever the buffers contained, every
element of the result becomes `alpha * (A B)(i,j) + beta * C(i,j)` in complex arithmetic, and no
memory outside the result's elements is touched. -/
theorem C20_gemm_complex {K : Type*} [CommRing K] [DecidableEq K] (Ar Br Cr : MatRange)
    (hA : Ar.isContiguous = true) (hB : Br.isContiguous = true) (hC : Cr.isContiguous = true)
    (hk : Ar.cn = Br.rn) (hr : Cr.rn = Ar.rn) (hc : Cr.cn = Br.cn) (A B : Arr K)
    (hne : A.someCplx B) (C : Int → Cx K) (junk : Int → K) (alpha beta : K) :
    (∀ i j, i < Cr.rn → j < Cr.cn → gemmCx Ar A Br B Cr C junk alpha beta (Cr.at_ i j) =
      .C alpha * ∑ l ∈ range Ar.cn, A.val (Ar.at_ i l) * B.val (Br.at_ l j) +
        .C beta * C (Cr.at_ i j)) ∧
    ∀ a : Int, (a < 0 ∨ ((Cr.rn * Cr.cn : Nat) : Int) ≤ a) →
      gemmCx Ar A Br B Cr C junk alpha beta a = C a := by
  have ct : ∀ r : MatRange, r.isContiguous = true → r.transpose.isContiguous = true := by
    intro r h
    simp only [MatRange.isContiguous, MatRange.isNormal, MatRange.isTransposed, MatRange.transpose,
      Bool.or_eq_true, Bool.and_eq_true, beq_iff_eq] at h ⊢
    omega
  have at_t : ∀ (r : MatRange) i j, r.transpose.at_ i j = r.at_ j i := by
    intro r i j; simp only [MatRange.at_, MatRange.transpose]; congr 1; ring
  have hne' : B.someCplx A := by cases A <;> cases B <;> first | exact hne | trivial
  constructor
  · intro i j hi hj
    unfold gemmCx
    rw [isTransposed_at Cr hC i j hi hj]
    by_cases ht : Cr.isTransposed = true
    · rw [if_pos ht, if_pos ht]
      have := gemmImplCx_in Br.transpose Ar.transpose Cr.transpose (ct _ hB) (ct _ hA) hk.symm
        (show Cr.cn * Cr.rn = Br.cn * Ar.rn by rw [hr, hc]) B A hne' C junk alpha beta j i
        (show j < Br.cn by omega) (show i < Ar.rn by omega)
      rw [hc]
      refine this.trans ?_
      congr 2
      show ∑ l ∈ range Br.rn, _ = _
      rw [← hk]
      refine sum_congr rfl fun l _ => ?_
      rw [at_t, at_t, mul_comm]
    · rw [if_neg ht, if_neg ht, hr]
      exact gemmImplCx_in Ar Br Cr hA hB hk (show Cr.rn * Cr.cn = _ by rw [hr, hc]) A B hne C junk
        alpha beta i j (by omega) (by omega)
  · intro a ha
    unfold gemmCx
    split
    · exact gemmImplCx_out _ _ _ _ _ _ _ _ _ _ (by
        show a < 0 ∨ ((Cr.cn * Cr.rn : Nat) : Int) ≤ a
        rw [Nat.mul_comm]; exact ha)
    · exact gemmImplCx_out _ _ _ _ _ _ _ _ _ _ ha

/-- hypotheses met: a transposed 2x3 view times a normal 3x1 complex matrix, transposed result -/
example : let Ar := (MatRange.mk2 3 2).transpose
    let Br := MatRange.mk2 3 1
    let Cr := (MatRange.mk2 1 2).transpose
    Ar.isContiguous = true ∧ Br.isContiguous = true ∧ Cr.isContiguous = true ∧ Ar.cn = Br.rn ∧
      Cr.rn = Ar.rn ∧ Cr.cn = Br.cn ∧
      gemmCx Ar (.real fun a => a + 1) Br (.cplx fun a => (⟨a, 1⟩ : Cx Int)) Cr (fun _ => ⟨10, 20⟩)
        (fun _ => 77) 2 3 (Cr.at_ 1 0) = ⟨2 * 17 + 30, 2 * 15 + 60⟩ := by
  decide

end Verif.Tensor
