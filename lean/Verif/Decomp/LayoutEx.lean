import Verif.Decomp.LayoutC94
import Verif.Decomp.SvdRefC93
import Mathlib.LinearAlgebra.Matrix.Notation
import Mathlib.Tactic.FinCases
import Mathlib.Tactic.NormNum

/-!
# C94: where the decomposition of a view goes wrong, and cases where it does not
-/

namespace Verif.Layout

open Matrix
open Verif.Views (MView val elemM MProper mat subMatrix)
open Verif.SvdRef (dg Out IsSvd rrows)

/-! ### SVD: the second attempt -/

/-- A column with elements 3 and 4, as `SVDRef` sees it after it has transposed it (algs.cc:598). -/
def colT : MView := ⟨0, ⟨1, 2, 2, 1⟩⟩

theorem colT_eq : colT = (mat 0 2 1).transpose := rfl

/-- **C94, counterexample.** A matrix with more rows than columns is transposed. If `gesdd` reports an
error for it, the method `automatic` fills the memory again for `gesvd`, but from where the pointer
is after the first copy: behind the matrix. Without anything there the behaviour is undefined; with
zeros there, `gesvd` decomposes zeros. -/
theorem C94_fallback_counterexample :
    MProper ([3, 4] : List ℝ) colT ∧ colT.r.isContiguous = true ∧
      (∀ L : Lapack ℝ, (∀ A, L.gesdd 1 2 A = none) → svdLapack L "automatic" [3, 4] colT = .ub) ∧
      ∀ L : Lapack ℝ, L.Right → (∀ A, L.gesdd 1 2 A = none) → ∀ U D V,
        svdLapack L "automatic" [3, 4, 0, 0] colT = .ok (U, D, V) →
          ¬ ∀ j, j < 2 →
            val ([3, 4, 0, 0] : List ℝ) (elemM colT 0 j) = val U 0 * D.getD 0 0 * val V j := by
  refine ⟨⟨?_, ?_⟩, by decide, ?_, ?_⟩
  · intro i j hi hj
    simp only [colT, elemM, List.length_cons, List.length_nil] at *
    omega
  · intro i j i' j' hi hj hi' hj' h
    simp only [colT, elemM] at *
    omega
  · intro L hL
    simp [colT, svdLapack, fill, Tensor.MatRange.isTransposed, scatter, Views.read, Views.write, Res.bind,
      Res.map, call, hL]
  · intro L hL hdd U D V h
    have hfill : fill ([3, 4, 0, 0] : List ℝ) colT colT.off = .ok ([3, 4], 2) := by
      simp [colT, fill, Tensor.MatRange.isTransposed, scatter, Views.read, Views.write, Res.bind,
        Res.map]
    have hfill2 : fill ([3, 4, 0, 0] : List ℝ) colT 2 = .ok ([0, 0], 4) := by
      simp [colT, fill, Tensor.MatRange.isTransposed, scatter, Views.read, Views.write, Res.bind,
        Res.map]
    have hcall : call L "automatic" [3, 4, 0, 0] colT [3, 4] 2 = .ok (L.gesvd 1 2 [0, 0]) := by
      have hd : L.gesdd colT.r.rn colT.r.cn [3, 4] = none := hdd _
      simp only [call, if_true, hd, hfill2, Res.map]
      rfl
    unfold svdLapack at h
    rw [hfill] at h
    simp only [Res.bind] at h
    rw [hcall] at h
    simp only at h
    split at h
    · cases h
    · rename_i U' D' VT e2
      obtain ⟨hl, hu, hv, heq, -, -⟩ := hL.gesvd (m := 1) (n := 2) rfl e2
      have hl : VT.length = 2 := by simpa using hl
      have h : (gather VT (fun i => i % 2 * 1 + i / 2) 2).map (fun V => (U', D', V.map star)) =
          .ok (U, D, V) := h
      rw [gather_ok (by intro i hi; omega)] at h
      simp only [Res.map, Res.ok.injEq, Prod.mk.injEq] at h
      obtain ⟨rfl, rfl, rfl⟩ := h
      intro hM
      have h0 := congrFun (congrFun heq 0) 0
      have h1 := hM 0 (by norm_num)
      simp [Matrix.mul_apply, dg, Matrix.diagonal_apply, bm, vec, val, elemM, colT,
        List.range_succ] at h0 h1
      rcases h0 with (h0 | h0) | h0 <;> simp [h0] at h1

/-! ### SVD: strides -/

/-- The upper left corner of a matrix with three rows. -/
def corner : MView := ⟨0, ⟨2, 1, 2, 3⟩⟩

theorem corner_eq : corner = subMatrix (mat 0 3 3) 0 2 0 2 := by decide

/-- **C94, counterexample.** The first four numbers of the memory are decomposed, not the matrix the
view shows, which here is zero. -/
theorem C94_strided_counterexample :
    MProper ([0, 0, 1, 0, 0, 0, 0, 0, 0] : List ℝ) corner ∧
      ∀ L : Lapack ℝ, L.Right → ∀ U D V,
        svdLapack L "gesdd" [0, 0, 1, 0, 0, 0, 0, 0, 0] corner = .ok (U, D, V) →
          ¬ ∀ i j, i < 2 → j < 2 → val ([0, 0, 1, 0, 0, 0, 0, 0, 0] : List ℝ) (elemM corner i j) =
            val U i * D.getD 0 0 * val V j + val U (i + 2) * D.getD 1 0 * val V (j + 2) := by
  refine ⟨⟨?_, ?_⟩, ?_⟩
  · intro i j hi hj
    simp only [corner, elemM, List.length_cons, List.length_nil] at *
    omega
  · intro i j i' j' hi hj hi' hj' h
    simp only [corner, elemM] at *
    omega
  · intro L hL U D V h
    have hfill : fill ([0, 0, 1, 0, 0, 0, 0, 0, 0] : List ℝ) corner corner.off = .ok ([0, 0, 1, 0], 0) := by
      simp [corner, fill, Tensor.MatRange.isTransposed, gather, Views.read, Res.bind, Res.map]
    have hcall : call L "gesdd" [0, 0, 1, 0, 0, 0, 0, 0, 0] corner [0, 0, 1, 0] 0 =
        .ok (L.gesdd 2 2 [0, 0, 1, 0]) := by
      simp [call, corner]
    unfold svdLapack at h
    rw [hfill] at h
    simp only [Res.bind] at h
    rw [hcall] at h
    simp only at h
    split at h
    · cases h
    · rename_i U' D' VT e2
      obtain ⟨hl, hu, hv, heq, -, -⟩ := hL.gesdd (m := 2) (n := 2) rfl e2
      have hl : VT.length = 4 := by simpa using hl
      have h : (gather VT (fun i => i % 2 * 2 + i / 2) 4).map (fun V => (U', D', V.map star)) =
          .ok (U, D, V) := h
      rw [gather_ok (by intro i hi; omega)] at h
      simp only [Res.map, Res.ok.injEq, Prod.mk.injEq] at h
      obtain ⟨rfl, rfl, rfl⟩ := h
      intro hM
      have h0 := congrFun (congrFun heq 0) 1
      have h1 := hM 0 1 (by norm_num) (by norm_num)
      rw [Matrix.mul_apply] at h0
      replace h0 := h0.trans (Fin.sum_univ_two (M := ℝ) _)
      simp [Matrix.mul_apply, dg, Matrix.diagonal_apply, bm, vec, val, elemM, corner,
        List.range_succ, Fin.sum_univ_two] at h0 h1
      linarith

/-! ### QR: what was in `R` before -/

/-- **C94, counterexample.** `QR` writes `R` on and above the diagonal only, and `resize` keeps what was
in the memory of `R`: if `R` held numbers before the call, they stay below the diagonal and `Q R` is
not the matrix. -/
theorem C94_qr_counterexample (L : Lapack ℝ) (hL : L.Right) (Q R : List ℝ)
    (h : qr L false [1, 0, 0, 1] (mat 0 2 2) [7, 7, 7, 7] = .ok (Q, R)) :
    bm 2 2 R 1 0 = 7 ∧ ¬ bm 2 2 ([1, 0, 0, 1] : List ℝ) = bm 2 2 Q * bm 2 2 R := by
  have hb : gather ([1, 0, 0, 1] : List ℝ) (fun t => 0 + (t % 2 * 1 + t / 2 * 2)) (2 * 2) =
      .ok [1, 0, 0, 1] := by
    simp [gather, Views.read, Res.bind, Res.map]
  have hk : rrows false 2 2 = 2 := by decide
  have hr : resize ([7, 7, 7, 7] : List ℝ) (2 * 2) = [7, 7, 7, 7] := by simp [resize]
  have hm : (mat 0 2 2).r = ⟨2, 1, 2, 2⟩ := rfl
  have ho : (mat 0 2 2).off = 0 := rfl
  unfold qr at h
  rw [hm, ho] at h
  dsimp only at h
  rw [if_neg (by norm_num), hb, hk, hr] at h
  simp only [Res.bind] at h
  split at h
  · cases h
  · rename_i F Q' e
    obtain ⟨hF, hQ, heq⟩ := hL.qrf (m := 2) (n := 2) (k := 2) le_rfl (by norm_num) rfl e
    obtain ⟨R', e2, hl, hv⟩ := copyR_ok (m := 2) (n := 2) (k := 2) le_rfl hF 2 0 [7, 7, 7, 7] (by norm_num) rfl
    rw [e2] at h
    simp only [Res.map, Res.ok.injEq, Prod.mk.injEq] at h
    obtain ⟨rfl, rfl⟩ := h
    have h7 : bm 2 2 R' 1 0 = 7 := by
      have := hv 1 0 (by norm_num) (by norm_num)
      simpa [bm, val] using this
    refine ⟨h7, fun hM => ?_⟩
    have hc := congrArg (fun X => (bm 2 2 Q')ᴴ * X) (hM.symm.trans heq)
    rw [← Matrix.mul_assoc, ← Matrix.mul_assoc, hQ, Matrix.one_mul, Matrix.one_mul] at hc
    rw [hc] at h7
    simp at h7

/-! ### General matrices -/

/-- `dgeev` for one matrix. -/
noncomputable def geev₀ : Geev := fun N A =>
  open Classical in
  if N = 2 ∧ A = [4, 4, 0, 1] then some ([4, 1], [0, 0], [3/5, 4/5, 0, 1]) else none

theorem geev₀_some {N : ℕ} {A dr di R : List ℝ} (h : geev₀ N A = some (dr, di, R)) :
    N = 2 ∧ A = [4, 4, 0, 1] ∧ dr = [4, 1] ∧ di = [0, 0] ∧ R = [3/5, 4/5, 0, 1] := by
  unfold geev₀ at h
  split at h
  · rename_i hh
    simp only [Option.some.injEq, Prod.mk.injEq] at h
    exact ⟨hh.1, hh.2, h.1.symm, h.2.1.symm, h.2.2.symm⟩
  · cases h

theorem geev₀_right : GeevRight geev₀ where
  pos := by
    intro N A dr di R _ h j hj hd
    obtain ⟨rfl, rfl, rfl, rfl, rfl⟩ := geev₀_some h
    interval_cases j <;> simp at hd
  neg := by
    intro N A dr di R _ h j hj hd
    obtain ⟨rfl, rfl, rfl, rfl, rfl⟩ := geev₀_some h
    interval_cases j <;> simp at hd
  real := by
    intro N A dr di R _ h j hj hd i hi
    obtain ⟨rfl, rfl, rfl, rfl, rfl⟩ := geev₀_some h
    interval_cases j <;> interval_cases i <;> simp [Finset.sum_range_succ, val] <;> norm_num
  unit := by
    intro N A dr di R _ h j hj
    obtain ⟨rfl, rfl, rfl, rfl, rfl⟩ := geev₀_some h
    interval_cases j
    · exact ⟨0, by norm_num, by norm_num⟩
    · exact ⟨1, by norm_num, by norm_num⟩

/-- The matrix `4 4; 0 1` stored by rows. -/
def rowMajor : MView := ⟨0, ⟨2, 2, 2, 1⟩⟩

/-- **C94, counterexample.** For a transposed matrix, LAPACK finds the eigenvectors of the transpose,
and the matrix of these vectors is transposed: its columns are not eigenvectors. (The comment at
decomp.cc:832-840 says that this order does not work.) -/
theorem C94_general_counterexample :
    GeevRight geev₀ ∧ MProper ([4, 4, 0, 1] : List ℝ) rowMajor ∧ rowMajor.r.isTransposed = true ∧
      ∃ dr di v, diagGeneral geev₀ false [4, 4, 0, 1] rowMajor = .ok ((dr, di), v) ∧
        ¬ IsEigen 2 (fun i t => val ([4, 4, 0, 1] : List ℝ) (elemM rowMajor i t)) v 1
          (dr.getD 1 0) (di.getD 1 0) := by
  refine ⟨geev₀_right, ⟨?_, ?_⟩, by decide, ?_⟩
  · intro i j hi hj
    simp only [rowMajor, elemM, List.length_cons, List.length_nil] at *
    omega
  · intro i j i' j' hi hj hi' hj' h
    simp only [rowMajor, elemM] at *
    omega
  · have hb : gather ([4, 4, 0, 1] : List ℝ) (fun k => rowMajor.off + k) (2 * 2) = .ok [4, 4, 0, 1] := by
      simp [rowMajor, gather, Views.read, Res.bind, Res.map]
    have hg : geev₀ 2 [4, 4, 0, 1] = some ([4, 1], [0, 0], [3/5, 4/5, 0, 1]) := by simp [geev₀]
    refine ⟨[4, 1], [0, 0], unpack 2 (fun n => ([0, 0] : List ℝ).getD n 0)
        (fun i j => ([3/5, 4/5, 0, 1] : List ℝ).getD (j + i * 2) 0) 2 0 (fun _ _ => 0, fun _ _ => 0),
        ?_, ?_⟩
    · unfold diagGeneral
      rw [if_neg (by decide), if_neg (by decide)]
      dsimp only
      have e : rowMajor.r.cn = 2 := rfl
      rw [e, hb]
      simp only [Res.bind, hg, (by decide : rowMajor.r.isTransposed = true), if_true,
        Bool.false_eq_true, if_false]
    · intro h
      have := h.1 0 (by norm_num)
      simp [unpack, Finset.sum_range_succ, val, elemM, rowMajor] at this
      norm_num at this

/-- **C94, counterexample.** With left eigenvectors (`eigDecomp`) the function always ends in an
error. -/
theorem C94_left_counterexample (geev : Geev) (mem : List ℝ) (M : MView) (r) :
    diagGeneral geev true mem M ≠ .ok r := by
  unfold diagGeneral
  dsimp only
  split
  · simp
  · split
    · simp
    · cases gather mem (fun k => M.off + k) (M.r.cn * M.r.cn) with
      | throw => simp [Res.bind]
      | ub => simp [Res.bind]
      | ok b =>
        simp only [Res.bind]
        split <;> simp

/-- The same matrix stored by columns meets the hypotheses of `C94_general_partial`. -/
example : GeevRight geev₀ ∧ MProper ([4, 4, 0, 1] : List ℝ) (mat 0 2 2) ∧
    ∃ r, diagGeneral geev₀ false [4, 4, 0, 1] (mat 0 2 2) = .ok r := by
  refine ⟨geev₀_right, ⟨?_, ?_⟩, ?_⟩
  · intro i j hi hj
    simp only [mat, Tensor.MatRange.mk2, elemM, List.length_cons, List.length_nil] at *
    omega
  · intro i j i' j' hi hj hi' hj' h
    simp only [mat, Tensor.MatRange.mk2, elemM] at *
    omega
  · have hb : gather ([4, 4, 0, 1] : List ℝ) (fun k => (mat 0 2 2).off + k) (2 * 2) = .ok [4, 4, 0, 1] := by
      simp [mat, gather, Views.read, Res.bind, Res.map]
    have hg : geev₀ 2 [4, 4, 0, 1] = some ([4, 1], [0, 0], [3/5, 4/5, 0, 1]) := by simp [geev₀]
    unfold diagGeneral
    rw [if_neg (by decide), if_neg (by decide)]
    dsimp only
    have e : (mat 0 2 2).r.cn = 2 := rfl
    rw [e, hb]
    simp only [Res.bind, hg, Bool.false_eq_true, if_false]
    exact ⟨_, rfl⟩

/-! ### LAPACK's promises can be kept -/

section
variable {𝕜 : Type*} [RCLike 𝕜]

/-- A matrix stored by columns. -/
def buf {r c : ℕ} (X : Matrix (Fin r) (Fin c) 𝕜) : List 𝕜 :=
  (List.range (r * c)).map fun k =>
    if h : k % r < r ∧ k / r < c then X ⟨k % r, h.1⟩ ⟨k / r, h.2⟩ else 0

theorem bm_buf {r c : ℕ} (X : Matrix (Fin r) (Fin c) 𝕜) : bm r c (buf X) = X := by
  ext i j
  simp only [bm, Matrix.of_apply, buf]
  rw [val_map_range _ (idx_lt i.isLt j.isLt)]
  have h1 : (i.val + j.val * r) % r = i.val := idx_mod i.isLt
  have h2 : (i.val + j.val * r) / r = j.val := idx_div i.isLt
  rw [dif_pos ⟨by rw [h1]; exact i.isLt, by rw [h2]; exact j.isLt⟩]
  congr 1 <;> exact Fin.ext (by assumption)

theorem buf_length {r c : ℕ} (X : Matrix (Fin r) (Fin c) 𝕜) : (buf X).length = r * c := by simp [buf]

theorem vec_ofFn {k : ℕ} (d : Fin k → ℝ) : vec k (List.ofFn d) = d := by
  funext i
  simp [vec]

theorem exists_svd {m n : ℕ} (M : Matrix (Fin m) (Fin n) 𝕜) : ∃ o : Out 𝕜 m n (min m n), IsSvd M o := by
  by_cases h : 1 ≤ m ∧ 1 ≤ n
  · obtain ⟨L, hL, hT⟩ := SvdRef.C93_lapack (𝕜 := 𝕜)
    have hl : SvdRef.Method.Right (𝕜 := 𝕜) (fun m n M => SvdRef.impl L 0 m m n M) :=
      fun m n M o hmn h => SvdRef.impl_svd hL 0 m hmn h
    obtain ⟨⟨k, o⟩, ho⟩ := SvdRef.C93_returns hT 0 (fun m n M => SvdRef.impl L 0 m m n M)
      h.1 h.2 le_rfl M
    obtain ⟨rfl, h2, h3, h4, h5, h6⟩ := SvdRef.C93_svd hL 0 hl _ _ ho
    exact ⟨o, ⟨h2, h3, h4, h5, h6⟩⟩
  · have h0 : min m n = 0 := by omega
    refine ⟨⟨0, 0, 0⟩, ⟨?_, ?_, ?_, ?_, ?_⟩⟩
    · ext i; exact absurd i.isLt (by omega)
    · ext i; exact absurd i.isLt (by omega)
    · ext i j
      have := i.isLt
      have := j.isLt
      omega
    · intro i; exact le_rfl
    · intro i; exact absurd i.isLt (by omega)

/-- A LAPACK that keeps its promises and never reports an error. -/
theorem C94_lapack : ∃ L : Lapack 𝕜, L.Right ∧ (∀ n A, (bm n n A)ᴴ = bm n n A → (L.syev n A).isSome) ∧
    (∀ m n k A, k ≤ m → min m n ≤ k → (L.qrf m n k A).isSome) ∧ (∀ m n A, (L.gesdd m n A).isSome) ∧
    ∀ m n A, (L.gesvd m n A).isSome := by
  classical
  have hq : ∀ (m n k : ℕ) (A : List 𝕜), k ≤ m → min m n ≤ k → ∃ F Q : List 𝕜, F.length = m * n ∧
      (bm m k Q)ᴴ * bm m k Q = 1 ∧ bm m n A = bm m k Q * Matrix.of fun (i : Fin k) (j : Fin n) =>
        if i.val ≤ j.val then val F (i.val + j.val * m) else 0 := by
    intro m n k A h1 h2
    obtain ⟨Q, R, hQ, hA, ht, -⟩ := SvdRef.exists_qr h1 h2 (bm m n A)
    let F : Matrix (Fin m) (Fin n) 𝕜 := Matrix.of fun i j => if h : i.val < k then R ⟨i.val, h⟩ j else 0
    refine ⟨buf F, buf Q, buf_length _, by rw [bm_buf]; exact hQ, ?_⟩
    rw [bm_buf, hA]
    congr 1
    ext i j
    rw [Matrix.of_apply]
    split
    · have := congrFun (congrFun (bm_buf F) ⟨i.val, by omega⟩) j
      simp only [bm, Matrix.of_apply] at this
      rw [this]
      simp [F]
    · exact ht i j (by omega)
  have hs : ∀ (m n : ℕ) (A : List 𝕜), ∃ (U : List 𝕜) (D : List ℝ) (VT : List 𝕜),
      VT.length = min m n * n ∧
      (bm m (min m n) U)ᴴ * bm m (min m n) U = 1 ∧ bm (min m n) n VT * (bm (min m n) n VT)ᴴ = 1 ∧
      bm m n A = bm m (min m n) U * dg (vec _ D) * bm (min m n) n VT ∧
      (∀ i, 0 ≤ vec (min m n) D i) ∧ Antitone (vec (min m n) D) := by
    intro m n A
    obtain ⟨o, ho⟩ := exists_svd (bm m n A)
    refine ⟨buf o.U, List.ofFn o.D, buf o.Vᴴ, buf_length _, ?_, ?_, ?_, ?_, ?_⟩
    · rw [bm_buf]; exact ho.u
    · rw [bm_buf, Matrix.conjTranspose_conjTranspose]; exact ho.v
    · rw [bm_buf, bm_buf, vec_ofFn]; exact ho.eq
    · rw [vec_ofFn]; exact ho.nonneg
    · rw [vec_ofFn]; exact ho.anti
  choose U D VT hs using hs
  have he : ∀ (n : ℕ) (A : List 𝕜), (bm n n A)ᴴ = bm n n A → ∃ (U : List 𝕜) (d : List ℝ),
      U.length = n * n ∧ d.length = n ∧ (bm n n U)ᴴ * bm n n U = 1 ∧
      bm n n A = bm n n U * dg (vec n d) * (bm n n U)ᴴ ∧ Monotone (vec n d) := by
    intro n A hA
    obtain ⟨U, d, h1, h2, h3⟩ := SvdRef.exists_eig hA
    refine ⟨buf U, List.ofFn d, buf_length _, by simp, ?_, ?_, ?_⟩
    · rw [bm_buf]; exact h1
    · rw [bm_buf, vec_ofFn]; exact h2
    · rw [vec_ofFn]; exact h3
  refine ⟨⟨fun n A => if h : (bm n n A)ᴴ = bm n n A then
      some ((he n A h).choose, (he n A h).choose_spec.choose) else none,
    fun m n k A => if h : k ≤ m ∧ min m n ≤ k then
      some ((hq m n k A h.1 h.2).choose, (hq m n k A h.1 h.2).choose_spec.choose) else none,
    fun m n A => some (U m n A, D m n A, VT m n A),
    fun m n A => some (U m n A, D m n A, VT m n A)⟩, ⟨?_, ?_, ?_, ?_⟩, ?_, ?_, ?_, ?_⟩
  · intro n A U d _ hA h
    simp only [dif_pos hA, Option.some.injEq, Prod.mk.injEq] at h
    obtain ⟨rfl, rfl⟩ := h
    exact (he n A hA).choose_spec.choose_spec
  · intro m n k A F Q h1 h2 _ h
    simp only [dif_pos (And.intro h1 h2), Option.some.injEq, Prod.mk.injEq] at h
    obtain ⟨rfl, rfl⟩ := h
    exact (hq m n k A h1 h2).choose_spec.choose_spec
  · intro m n A U D VT _ h
    simp only [Option.some.injEq, Prod.mk.injEq] at h
    obtain ⟨rfl, rfl, rfl⟩ := h
    exact hs m n A
  · intro m n A U D VT _ h
    simp only [Option.some.injEq, Prod.mk.injEq] at h
    obtain ⟨rfl, rfl, rfl⟩ := h
    exact hs m n A
  · intro n A hA
    simp [hA]
  · intro m n k A h1 h2
    simp [h1, h2]
  · intro m n A
    rfl
  · intro m n A
    rfl

end

/-- A transposed view meets the hypotheses of `C94_svd_partial`, and `SVDRefLAPACK` returns. -/
example (L : Lapack ℝ) (hL : L.Right) (hT : ∀ m n A, (L.gesdd m n A).isSome) :
    ∃ U D V, svdLapack L "automatic" [3, 4] colT = .ok (U, D, V) ∧
      IsSvd (vm ([3, 4] : List ℝ) colT) ⟨bm 1 1 U, vec 1 D, bm 2 1 V⟩ := by
  have hfill : fill ([3, 4] : List ℝ) colT colT.off = .ok ([3, 4], 2) := by
    simp [colT, fill, Tensor.MatRange.isTransposed, scatter, Views.read, Views.write, Res.bind,
      Res.map]
  obtain ⟨⟨U, D, VT⟩, hr⟩ := Option.isSome_iff_exists.mp (hT 1 2 [3, 4])
  have hcall : call L "automatic" [3, 4] colT [3, 4] 2 = .ok (some (U, D, VT)) := by
    have hd : L.gesdd colT.r.rn colT.r.cn [3, 4] = some (U, D, VT) := hr
    simp only [call, if_true, hd]
  have hl := (hL.gesdd (m := 1) (n := 2) rfl hr).1
  have hl : VT.length = 2 := by simpa using hl
  have hg := gather_ok (m := VT) (f := fun i => i % 2 * 1 + i / 2) (n := 2) (by intro i hi; omega)
  have hs : svdLapack L "automatic" [3, 4] colT =
      .ok (U, D, ((List.range 2).map fun i => val VT (i % 2 * 1 + i / 2)).map star) := by
    unfold svdLapack
    rw [hfill]
    simp only [Res.bind]
    rw [hcall]
    show Res.map _ (gather VT (fun i => i % 2 * 1 + i / 2) 2) = _
    rw [hg]
    rfl
  exact ⟨_, _, _, hs, C94_svd_partial hL C94_fallback_counterexample.1 (by decide) (by decide)
    (by decide) (Or.inr (Or.inr fun A => hT _ _ A)) hs⟩

end Verif.Layout
