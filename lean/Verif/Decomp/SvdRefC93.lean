import Verif.Decomp.SvdRefProps
import Mathlib.Analysis.Matrix.Spectrum
import Mathlib.Analysis.InnerProductSpace.GramSchmidtOrtho
import Mathlib.LinearAlgebra.Matrix.Charpoly.Basic
import Mathlib.Data.Fin.Tuple.Sort
import Mathlib.Data.List.OfFn

/-!
# C93: dense matrices are decomposed as promised
-/

namespace Verif.SvdRef

open Matrix

variable {𝕜 : Type*} [RCLike 𝕜]

/-! ### LAPACK's promises can be kept -/

theorem exists_eig {n : ℕ} {A : Matrix (Fin n) (Fin n) 𝕜} (hA : Aᴴ = A) :
    ∃ (U : Matrix (Fin n) (Fin n) 𝕜) (d : Fin n → ℝ),
      Uᴴ * U = 1 ∧ A = U * dg d * Uᴴ ∧ Monotone d := by
  have h : A.IsHermitian := hA
  let σ := Tuple.sort h.eigenvalues
  let U : Matrix (Fin n) (Fin n) 𝕜 := h.eigenvectorUnitary
  have hU : Uᴴ * U = 1 := by
    have := (Matrix.mem_unitaryGroup_iff' (A := U)).mp h.eigenvectorUnitary.2
    simpa [Matrix.star_eq_conjTranspose] using this
  have hs := h.spectral_theorem
  rw [Unitary.conjStarAlgAut_apply] at hs
  refine ⟨U.submatrix id σ, h.eigenvalues ∘ σ, ?_, ?_, Tuple.monotone_sort _⟩
  · have : (U.submatrix id σ)ᴴ * U.submatrix id σ = (Uᴴ * U).submatrix σ σ := by
      ext i j
      simp [Matrix.mul_apply]
    rw [this, hU]
    simp
  · have : U.submatrix id σ * dg (h.eigenvalues ∘ σ) * (U.submatrix id σ)ᴴ =
        U * dg h.eigenvalues * Uᴴ := by
      ext i j
      rw [Matrix.mul_apply, Matrix.mul_apply]
      conv_rhs => rw [← Equiv.sum_comp σ]
      refine Finset.sum_congr rfl fun x _ => ?_
      simp [dg, Matrix.mul_diagonal]
    rw [this]
    exact hs

theorem exists_qr_full {m n : ℕ} (A : Matrix (Fin m) (Fin n) 𝕜) :
    ∃ (Q : Matrix (Fin m) (Fin m) 𝕜) (R : Matrix (Fin m) (Fin n) 𝕜), Qᴴ * Q = 1 ∧ A = Q * R ∧
      ∀ (i : Fin m) (j : Fin n), j.val < i.val → R i j = 0 := by
  let f : Fin m → EuclideanSpace 𝕜 (Fin m) := fun i =>
    WithLp.toLp 2 fun a => if h : i.val < n then A a ⟨i.val, h⟩ else 0
  let b := InnerProductSpace.gramSchmidtOrthonormalBasis (𝕜 := 𝕜) (E := EuclideanSpace 𝕜 (Fin m))
    (by simp) f
  let Q : Matrix (Fin m) (Fin m) 𝕜 := Matrix.of fun a i => b i a
  have hQ : Qᴴ * Q = 1 := by
    ext i j
    have := orthonormal_iff_ite.mp b.orthonormal i j
    rw [EuclideanSpace.inner_eq_star_dotProduct] at this
    rw [Matrix.one_apply, ← this, Matrix.mul_apply, dotProduct]
    refine Finset.sum_congr rfl fun x _ => ?_
    simp [Q, mul_comm]
  have hQQ : Q * Qᴴ = 1 := mul_eq_one_comm.mp hQ
  refine ⟨Q, Qᴴ * A, hQ, ?_, ?_⟩
  · rw [← Matrix.mul_assoc, hQQ, Matrix.one_mul]
  · intro i j hij
    have hj : j.val < m := by have := i.isLt; omega
    have := InnerProductSpace.gramSchmidtOrthonormalBasis_inv_triangular (𝕜 := 𝕜)
      (E := EuclideanSpace 𝕜 (Fin m)) (by simp) f (i := ⟨j.val, hj⟩) (j := i) hij
    rw [EuclideanSpace.inner_eq_star_dotProduct] at this
    rw [Matrix.mul_apply, ← this, dotProduct]
    refine Finset.sum_congr rfl fun x _ => ?_
    simp [Q, f, b, mul_comm]

theorem exists_qr {m n k : ℕ} (hk : k ≤ m) (hk' : min m n ≤ k) (A : Matrix (Fin m) (Fin n) 𝕜) :
    ∃ (Q : Matrix (Fin m) (Fin k) 𝕜) (R : Matrix (Fin k) (Fin n) 𝕜), Qᴴ * Q = 1 ∧ A = Q * R ∧
      (∀ (i : Fin k) (j : Fin n), j.val < i.val → R i j = 0) ∧
      ∀ (i : Fin k) (j : Fin n), i.val = j.val → RCLike.im (R i j) = 0 := by
  obtain ⟨Q, R, hQ, hA, ht⟩ := exists_qr_full A
  have hks : k ≤ m := hk
  -- keep the first `k` columns
  let Q1 : Matrix (Fin m) (Fin k) 𝕜 := Q.submatrix id (Fin.castLE hk)
  let R1 : Matrix (Fin k) (Fin n) 𝕜 := R.submatrix (Fin.castLE hk) id
  have hQ1 : Q1ᴴ * Q1 = 1 := by
    have : Q1ᴴ * Q1 = (Qᴴ * Q).submatrix (Fin.castLE hk) (Fin.castLE hk) := by
      ext i j
      simp [Q1, Matrix.mul_apply]
    rw [this, hQ]
    ext i j
    simp [Matrix.one_apply, Fin.ext_iff]
  have hA1 : A = Q1 * R1 := by
    rw [hA]
    ext a j
    rw [Matrix.mul_apply, Matrix.mul_apply, ← (split hks).sum_comp, Fintype.sum_sum_type]
    have hz : ∀ c : Fin (m - k), R (split hks (.inr c)) j = 0 := by
      intro c
      apply ht
      rw [split_inr]
      have := j.isLt
      have := c.isLt
      omega
    simp only [hz, mul_zero, Finset.sum_const_zero, add_zero]
    refine Finset.sum_congr rfl fun x _ => ?_
    have : split hks (.inl x) = Fin.castLE hk x := Fin.ext (by rw [split_inl]; rfl)
    simp [Q1, R1, this]
  -- make the diagonal real
  let p : Fin k → 𝕜 := fun i =>
    if h : i.val < n then
      if R1 i ⟨i.val, h⟩ = 0 then 1 else R1 i ⟨i.val, h⟩ / (‖R1 i ⟨i.val, h⟩‖ : 𝕜)
    else 1
  have hp : ∀ i, star (p i) * p i = 1 := by
    intro i
    simp only [p]
    split
    · split
      · simp
      · rename_i h0
        have hn : (‖R1 i ⟨i.val, by assumption⟩‖ : 𝕜) ≠ 0 := by
          simpa using h0
        have := RCLike.conj_mul (R1 i ⟨i.val, by assumption⟩)
        rw [star_div₀, div_mul_div_comm]
        rw [div_eq_one_iff_eq (by simpa using h0)]
        rw [show star (R1 i ⟨i.val, by assumption⟩) = (starRingEnd 𝕜) (R1 i ⟨i.val, by assumption⟩)
          from rfl, this]
        simp [sq]
    · simp
  have hpp : Matrix.diagonal p * (Matrix.diagonal p)ᴴ = 1 := by
    rw [Matrix.diagonal_conjTranspose, Matrix.diagonal_mul_diagonal]
    rw [← Matrix.diagonal_one]
    congr 1
    funext i
    rw [mul_comm]
    exact hp i
  have hpp' : (Matrix.diagonal p)ᴴ * Matrix.diagonal p = 1 := mul_eq_one_comm.mp hpp
  refine ⟨Q1 * Matrix.diagonal p, (Matrix.diagonal p)ᴴ * R1, ?_, ?_, ?_, ?_⟩
  · rw [Matrix.conjTranspose_mul, Matrix.mul_assoc, ← Matrix.mul_assoc Q1ᴴ, hQ1, Matrix.one_mul, hpp']
  · rw [Matrix.mul_assoc, ← Matrix.mul_assoc (Matrix.diagonal p), hpp, Matrix.one_mul]
    exact hA1
  · intro i j hij
    rw [Matrix.diagonal_conjTranspose, Matrix.diagonal_mul]
    have : R1 i j = 0 := ht _ _ hij
    rw [this, mul_zero]
  · intro i j hij
    rw [Matrix.diagonal_conjTranspose, Matrix.diagonal_mul]
    have hi : i.val < n := hij ▸ j.isLt
    have e : j = ⟨i.val, hi⟩ := Fin.ext hij.symm
    subst e
    simp only [p, Pi.star_apply, dif_pos hi]
    split
    · rename_i h0
      simp [h0]
    · rw [star_div₀, div_mul_eq_mul_div,
        show star (R1 i ⟨i.val, hi⟩) = (starRingEnd 𝕜) (R1 i ⟨i.val, hi⟩) from rfl, RCLike.conj_mul]
      have : star (‖R1 i ⟨i.val, hi⟩‖ : 𝕜) = (‖R1 i ⟨i.val, hi⟩‖ : 𝕜) := by simp
      rw [this]
      have e2 : ((‖R1 i ⟨i.val, hi⟩‖ : 𝕜) ^ 2 / (‖R1 i ⟨i.val, hi⟩‖ : 𝕜)) =
          ((‖R1 i ⟨i.val, hi⟩‖ ^ 2 / ‖R1 i ⟨i.val, hi⟩‖ : ℝ) : 𝕜) := by
        push_cast
        rfl
      rw [e2, RCLike.ofReal_im]

/-- A LAPACK that keeps its promises and never reports an error. -/
theorem C93_lapack : ∃ L : Lapack 𝕜, L.Right ∧ L.Total := by
  classical
  refine ⟨⟨fun n A => if h : Aᴴ = A then
      some ((exists_eig h).choose, (exists_eig h).choose_spec.choose) else some (0, 0),
    fun m n k A => if h : k ≤ m ∧ min m n ≤ k then
      some ((exists_qr h.1 h.2 A).choose, (exists_qr h.1 h.2 A).choose_spec.choose)
      else some (0, 0)⟩, ⟨?_, ?_⟩, ⟨?_, ?_⟩⟩
  · intro n A U d hA h
    simp only [dif_pos hA, Option.some.injEq, Prod.mk.injEq] at h
    obtain ⟨rfl, rfl⟩ := h
    exact (exists_eig hA).choose_spec.choose_spec
  · intro m n k A Q R h1 h2 h
    simp only [dif_pos (And.intro h1 h2), Option.some.injEq, Prod.mk.injEq] at h
    obtain ⟨rfl, rfl⟩ := h
    exact (exists_qr h1 h2 A).choose_spec.choose_spec
  · intro n A
    dsimp only
    split <;> rfl
  · intro m n k A
    dsimp only
    split <;> rfl

/-! ### The singular values are determined by the matrix -/

theorem svd_charpoly {m n k : ℕ} {M : Matrix (Fin m) (Fin n) 𝕜} {o : Out 𝕜 m n k} (h : IsSvd M o) :
    Polynomial.X ^ k * (M * Mᴴ).charpoly =
      Polynomial.X ^ m * ∏ i, (Polynomial.X - Polynomial.C ((o.D i * o.D i : ℝ) : 𝕜)) := by
  have e : M * Mᴴ = o.U * ((dg fun i => o.D i * o.D i) * o.Uᴴ) := by
    conv_lhs => rw [h.eq]
    rw [Matrix.conjTranspose_mul, Matrix.conjTranspose_mul, Matrix.conjTranspose_conjTranspose,
      dg_star, Matrix.mul_assoc, ← Matrix.mul_assoc (o.Vᴴ), h.v, Matrix.one_mul,
      Matrix.mul_assoc, ← Matrix.mul_assoc (dg o.D), dg_mul]
  have := Matrix.charpoly_mul_comm' o.U ((dg fun i => o.D i * o.D i) * o.Uᴴ)
  rw [Matrix.mul_assoc, h.u, Matrix.mul_one, ← e] at this
  simpa [dg, Matrix.charpoly_diagonal] using this

theorem svd_unique {m n k : ℕ} {M : Matrix (Fin m) (Fin n) 𝕜} {o o' : Out 𝕜 m n k} (h : IsSvd M o)
    (h' : IsSvd M o') : o.D = o'.D := by
  have e := (svd_charpoly h).symm.trans (svd_charpoly h')
  have e := mul_left_cancel₀ (pow_ne_zero m Polynomial.X_ne_zero) e
  have e := congrArg Polynomial.roots e
  rw [Polynomial.roots_prod _ _ (Polynomial.monic_prod_of_monic _ _ fun i _ =>
      Polynomial.monic_X_sub_C _).ne_zero,
    Polynomial.roots_prod _ _ (Polynomial.monic_prod_of_monic _ _ fun i _ =>
      Polynomial.monic_X_sub_C _).ne_zero] at e
  simp only [Polynomial.roots_X_sub_C, Multiset.bind_singleton] at e
  have e2 : Finset.univ.val.map o.D = Finset.univ.val.map o'.D := by
    have := congrArg (Multiset.map fun z : 𝕜 => Real.sqrt (RCLike.re z)) e
    rw [Multiset.map_map, Multiset.map_map] at this
    have g : ∀ {o : Out 𝕜 m n k}, IsSvd M o →
        ((fun z : 𝕜 => Real.sqrt (RCLike.re z)) ∘ fun i => ((o.D i * o.D i : ℝ) : 𝕜)) = o.D := by
      intro o h
      funext i
      simp only [Function.comp, RCLike.ofReal_re]
      exact Real.sqrt_mul_self (h.nonneg i)
    rwa [g h, g h'] at this
  have hp : List.Perm (List.ofFn o.D) (List.ofFn o'.D) := by
    rw [← Multiset.coe_eq_coe]
    simpa using e2
  have hs : ∀ {o : Out 𝕜 m n k}, IsSvd M o → (List.ofFn o.D).SortedGE := by
    intro o h
    exact List.sortedGE_ofFn_iff.mpr h.anti
  exact List.ofFn_injective (hp.eq_of_sortedGE (hs h) (hs h'))

/-! ### The theorems -/

/-- `SVDRefLAPACK` returns singular value decompositions. -/
def Method.Right (f : Method 𝕜) : Prop :=
  ∀ m n (M : Matrix (Fin m) (Fin n) 𝕜) o, m ≤ n → f m n M = some (.ok o) → IsSvd M o

theorem choose_svd {L : Lapack 𝕜} (hL : L.Right) (thresh : ℝ) {lapack : Method 𝕜}
    (hl : lapack.Right) (method : String) (fuel : ℕ) {m n : ℕ} (hmn : m ≤ n)
    {M : Matrix (Fin m) (Fin n) 𝕜} {o} (h : choose L thresh lapack method fuel m n M = some (.ok o)) :
    IsSvd M o := by
  unfold choose at h
  split at h
  · exact impl_svd hL thresh fuel hmn h
  · split at h
    · exact hl m n M o hmn h
    · simp at h

theorem map_star_mul {p q : ℕ} (X : Matrix (Fin p) (Fin q) 𝕜) :
    (X.map star)ᴴ * X.map star = (Xᴴ * X).map star := by
  ext i j
  simp [Matrix.mul_apply]

theorem map_star_one {p : ℕ} : (1 : Matrix (Fin p) (Fin p) 𝕜).map star = 1 := by
  ext i j
  by_cases h : i = j <;> simp [Matrix.one_apply, h]

/-- **C93, the singular value decomposition.** Whatever the method and the threshold: if `SVD`
returns, `U` and `V` have orthonormal columns, `M` is `U D V†`, and the `min(m,n)` values in `D` are
not negative and in descending order. -/
theorem C93_svd {L : Lapack 𝕜} (hL : L.Right) (thresh : ℝ) {lapack : Method 𝕜} (hl : lapack.Right)
    (method : String) (fuel : ℕ) {m n : ℕ} {M : Matrix (Fin m) (Fin n) 𝕜} {k : ℕ} {o : Out 𝕜 m n k}
    (h : svd L thresh lapack method fuel M = some (.ok ⟨k, o⟩)) :
    k = min m n ∧ o.Uᴴ * o.U = 1 ∧ o.Vᴴ * o.V = 1 ∧
      M = o.U * Matrix.diagonal (fun i => (o.D i : 𝕜)) * o.Vᴴ ∧ (∀ i, 0 ≤ o.D i) ∧ Antitone o.D := by
  unfold svd at h
  split at h
  · rename_i hmn
    cases hc : choose L thresh lapack method fuel n m Mᵀ with
    | none => simp [hc] at h
    | some r =>
      cases r with
      | throw => simp [hc, Res.map] at h
      | ub => simp [hc, Res.map] at h
      | ok o' =>
        have := choose_svd hL thresh hl method fuel (le_of_lt hmn) hc
        simp only [hc, Option.map_some, Res.map, Option.some.injEq, Res.ok.injEq, Sigma.mk.injEq] at h
        obtain ⟨rfl, h⟩ := h
        have h := eq_of_heq h
        subst h
        refine ⟨by omega, ?_, ?_, ?_, this.nonneg, this.anti⟩
        · dsimp only
          rw [map_star_mul, this.v, map_star_one]
        · dsimp only
          rw [map_star_mul, this.u, map_star_one]
        · dsimp only
          have e := congrArg Matrix.transpose this.eq
          rw [Matrix.transpose_transpose, Matrix.transpose_mul, Matrix.transpose_mul] at e
          have e1 : (dg o'.D : Matrix (Fin n) (Fin n) 𝕜)ᵀ = dg o'.D := by simp [dg]
          have e2 : (o'.Vᴴ)ᵀ = o'.V.map star := rfl
          have e3 : o'.Uᵀ = (o'.U.map star)ᴴ := by
            ext i j
            simp
          rw [e1, e2, e3, ← Matrix.mul_assoc] at e
          exact e
  · rename_i hmn
    cases hc : choose L thresh lapack method fuel m n M with
    | none => simp [hc] at h
    | some r =>
      cases r with
      | throw => simp [hc, Res.map] at h
      | ub => simp [hc, Res.map] at h
      | ok o' =>
        have := choose_svd hL thresh hl method fuel (by omega) hc
        simp only [hc, Option.map_some, Res.map, Option.some.injEq, Res.ok.injEq, Sigma.mk.injEq] at h
        obtain ⟨rfl, h⟩ := h
        have h := eq_of_heq h
        subst h
        exact ⟨by omega, this.u, this.v, this.eq, this.nonneg, this.anti⟩

/-- **C93, the singular values.** Two runs of `SVD` on one matrix agree on the singular values: they
depend neither on the method, nor on the threshold, nor on what LAPACK does. -/
theorem C93_values {L L' : Lapack 𝕜} (hL : L.Right) (hL' : L'.Right) {thresh thresh' : ℝ}
    {lapack lapack' : Method 𝕜} (hl : lapack.Right) (hl' : lapack'.Right) {method method' : String}
    {fuel fuel' : ℕ} {m n : ℕ} {M : Matrix (Fin m) (Fin n) 𝕜} {k k' : ℕ} {o : Out 𝕜 m n k}
    {o' : Out 𝕜 m n k'} (h : svd L thresh lapack method fuel M = some (.ok ⟨k, o⟩))
    (h' : svd L' thresh' lapack' method' fuel' M = some (.ok ⟨k', o'⟩)) :
    ∃ e : k = k', ∀ i : Fin k, o.D i = o'.D (Fin.cast e i) := by
  obtain ⟨h1, h2, h3, h4, h5, h6⟩ := C93_svd hL thresh hl method fuel h
  obtain ⟨g1, g2, g3, g4, g5, g6⟩ := C93_svd hL' thresh' hl' method' fuel' h'
  have e : k = k' := h1.trans g1.symm
  subst e
  refine ⟨rfl, fun i => ?_⟩
  rw [svd_unique (M := M) (o := o) (o' := o') ⟨h2, h3, h4, h5, h6⟩ ⟨g2, g3, g4, g5, g6⟩]
  rfl

theorem impl_returns {L : Lapack 𝕜} (hL : L.Total) (thresh : ℝ) (f : ℕ) {m n : ℕ} (hm : 1 ≤ m)
    (hn : 1 ≤ n) (hf : m ≤ f) (M : Matrix (Fin m) (Fin n) 𝕜) :
    ∃ o, impl L thresh f m n M = some (.ok o) := by
  induction f generalizing m n with
  | zero => omega
  | succ f ih =>
    unfold impl
    obtain ⟨⟨U, d⟩, he⟩ := Option.isSome_iff_exists.mp (hL.eig m (-(M * Mᴴ)))
    have he' : diagHermitian L (M * Mᴴ) = .ok (U, fun i => d i * (-1)) := by
      unfold diagHermitian
      rw [if_neg (by omega), he]
    obtain ⟨QR, hq⟩ := Option.isSome_iff_exists.mp (hL.qr n m (rrows false n m) (Mᴴ * U))
    have hq' : qr L false true (Mᴴ * U) = .ok (posLoop QR) := by
      unfold qr
      rw [if_neg (by omega), hq]
      simp
    dsimp only
    rw [he']
    dsimp only
    rw [hq']
    dsimp only
    split
    · exact ⟨_, rfl⟩
    · rename_i hc
      obtain ⟨h1, h2⟩ := checkDone_start (Bool.eq_false_iff.mpr hc)
      obtain ⟨o, ho⟩ := ih (m := m - (checkDone (diagR (posLoop QR).2) thresh).2)
        (n := m - (checkDone (diagR (posLoop QR).2) thresh).2) (by omega) (by omega) (by omega)
        ((cols U (checkDone (diagR (posLoop QR).2) thresh).2)ᴴ *
          (M * cols (assign (Mᴴ * U) (posLoop QR).1) (checkDone (diagR (posLoop QR).2) thresh).2))
      rw [ho]
      exact ⟨_, rfl⟩

/-- **C93, the recursion ends.** As long as LAPACK reports no error, the built-in SVD of a matrix
that is not empty returns, with at most `min(m,n)` calls of `SVDRefImpl`. -/
theorem C93_returns {L : Lapack 𝕜} (hL : L.Total) (thresh : ℝ) (lapack : Method 𝕜) {fuel m n : ℕ}
    (hm : 1 ≤ m) (hn : 1 ≤ n) (hf : min m n ≤ fuel) (M : Matrix (Fin m) (Fin n) 𝕜) :
    ∃ o, svd L thresh lapack "ITensor" fuel M = some (.ok o) := by
  unfold svd choose
  split
  · obtain ⟨o, ho⟩ := impl_returns hL thresh fuel hn hm (by omega) Mᵀ
    rw [if_pos rfl, ho]
    exact ⟨_, rfl⟩
  · obtain ⟨o, ho⟩ := impl_returns hL thresh fuel hm hn (by omega) M
    rw [if_pos rfl, ho]
    exact ⟨_, rfl⟩

/-- **C93, what is refused.** The built-in SVD of an empty matrix is refused, and so is a method with
an unknown name. -/
theorem C93_refused (L : Lapack 𝕜) (thresh : ℝ) (lapack : Method 𝕜) (fuel : ℕ) {m n : ℕ}
    (M : Matrix (Fin m) (Fin n) 𝕜) (method : String)
    (h : (method = "ITensor" ∧ (m = 0 ∨ n = 0)) ∨
      method ∉ ["ITensor", "automatic", "gesdd", "gesvd"]) :
    svd L thresh lapack method (fuel + 1) M = some .throw := by
  have key : ∀ {m n : ℕ} (M : Matrix (Fin m) (Fin n) 𝕜), (method = "ITensor" ∧ m = 0) ∨
      method ∉ ["ITensor", "automatic", "gesdd", "gesvd"] →
      choose L thresh lapack method (fuel + 1) m n M = some .throw := by
    intro m n M h
    unfold choose
    rcases h with ⟨h1, h2⟩ | h
    · rw [if_pos h1]
      subst h2
      unfold impl
      simp [diagHermitian]
    · simp only [List.mem_cons, List.not_mem_nil, or_false, not_or] at h
      rw [if_neg h.1, if_neg (by tauto)]
  unfold svd
  split
  · rw [key]
    · rfl
    · rcases h with ⟨h1, h2⟩ | h
      · exact Or.inl ⟨h1, by omega⟩
      · exact Or.inr h
  · rw [key]
    · rfl
    · rcases h with ⟨h1, h2⟩ | h
      · exact Or.inl ⟨h1, by omega⟩
      · exact Or.inr h

/-- **C93, the QR decomposition.** If `QR` returns, `A` is `Q R` with orthonormal columns in `Q` and
an upper triangular `R`; the number of columns of `Q` is that of the smaller side, or the number of
rows if `Complete` is set. The diagonal of `R` is real, and not negative if `PositiveDiagonal` is
set. -/
theorem C93_qr {L : Lapack 𝕜} (hL : L.Right) {complete positive : Bool} {m n : ℕ}
    {A : Matrix (Fin m) (Fin n) 𝕜} {Q R} (h : qr L complete positive A = .ok (Q, R)) :
    rrows complete m n = (if complete then m else min m n) ∧ Qᴴ * Q = 1 ∧ A = Q * R ∧
      (∀ (i : Fin (rrows complete m n)) (j : Fin n), j.val < i.val → R i j = 0) ∧
      (∀ (i : Fin (rrows complete m n)) (j : Fin n), i.val = j.val → RCLike.im (R i j) = 0) ∧
      (positive = true →
        ∀ (i : Fin (rrows complete m n)) (j : Fin n), i.val = j.val → 0 ≤ RCLike.re (R i j)) := by
  refine ⟨?_, qr_ok hL h⟩
  unfold rrows
  cases complete
  · simp only [Bool.false_eq_true, if_false]
    split <;> omega
  · simp

/-- **C93, `diagHermitian`.** The eigenvalues come in descending order. -/
theorem C93_eig {L : Lapack 𝕜} (hL : L.Right) {n : ℕ} {A U : Matrix (Fin n) (Fin n) 𝕜}
    {d : Fin n → ℝ} (hA : Aᴴ = A) (h : diagHermitian L A = .ok (U, d)) :
    Uᴴ * U = 1 ∧ A = U * Matrix.diagonal (fun i => (d i : 𝕜)) * Uᴴ ∧ Antitone d :=
  diagHermitian_ok hL hA h

/-- **C93, random orthogonal matrices.** Whatever the random numbers, `randomOrthog(n,m)` has
orthonormal columns if there are at most as many columns as rows, and orthonormal rows if there are
at least as many. -/
theorem C93_orthog {L : Lapack 𝕜} (hL : L.Right) {n m : ℕ}
    {M : Matrix (Fin (max n m)) (Fin (max n m)) 𝕜} {Q : Matrix (Fin n) (Fin m) 𝕜}
    (h : randomOrthog L n m M = .ok Q) :
    (m ≤ n → Qᴴ * Q = 1) ∧ (n ≤ m → Q * Qᴴ = 1) := by
  unfold randomOrthog at h
  cases hq : qr L false true M with
  | throw => simp [hq, Res.map] at h
  | ub => simp [hq, Res.map] at h
  | ok QR =>
    obtain ⟨Q0, R⟩ := QR
    obtain ⟨hQ, -, -, -, -⟩ := qr_ok hL hq
    simp only [hq, Res.map, Res.ok.injEq] at h
    clear hq
    revert h
    have hk := rrows_thin (le_refl (max n m))
    revert Q0 R
    generalize rrows false (max n m) (max n m) = k at hk
    intro Q0 R hQ h
    have el : ∀ i j : Fin k, ∑ a, star (Q0 a i) * Q0 a j = if i = j then 1 else 0 := by
      intro i j
      have := congrFun (congrFun hQ i) j
      rw [Matrix.mul_apply] at this
      simpa [Matrix.one_apply] using this
    rcases lt_trichotomy m n with hlt | heq | hgt
    · rw [if_pos hlt] at h
      have hr : max n m = n := by omega
      refine ⟨fun _ => ?_, fun hh => by omega⟩
      subst h
      ext i j
      rw [Matrix.mul_apply, Matrix.one_apply]
      have := el ⟨i.val, by omega⟩ ⟨j.val, by omega⟩
      rw [← (finCongr hr.symm).sum_comp] at this
      simp only [Fin.mk.injEq] at this
      simp only [Fin.ext_iff]
      rw [← this]
      refine Finset.sum_congr rfl fun a _ => ?_
      have ha : a.val < max n m := by omega
      have hi : i.val < k := by omega
      have hj : j.val < k := by omega
      simp [retype, reduceCols, hi, hj, a.isLt]
      rfl
    · subst heq
      rw [if_neg (lt_irrefl _), if_neg (lt_irrefl _)] at h
      have hr : max m m = m := by omega
      have h1 : Qᴴ * Q = 1 := by
        subst h
        ext i j
        rw [Matrix.mul_apply, Matrix.one_apply]
        have := el ⟨i.val, by omega⟩ ⟨j.val, by omega⟩
        rw [← (finCongr hr.symm).sum_comp] at this
        simp only [Fin.mk.injEq] at this
        simp only [Fin.ext_iff]
        rw [← this]
        refine Finset.sum_congr rfl fun a _ => ?_
        have hi : i.val < k := by omega
        have hj : j.val < k := by omega
        simp [retype, hi, hj, a.isLt]
        rfl
      exact ⟨fun _ => h1, fun _ => mul_eq_one_comm.mp h1⟩
    · rw [if_neg (by omega), if_pos hgt] at h
      have hr : max n m = m := by omega
      refine ⟨fun hh => by omega, fun _ => ?_⟩
      subst h
      ext i j
      rw [Matrix.mul_apply, Matrix.one_apply]
      have := el ⟨j.val, by omega⟩ ⟨i.val, by omega⟩
      rw [← (finCongr hr.symm).sum_comp] at this
      simp only [Fin.mk.injEq, eq_comm (a := j.val)] at this
      simp only [Fin.ext_iff]
      rw [← this]
      refine Finset.sum_congr rfl fun a _ => ?_
      have hi : i.val < k := by omega
      have hj : j.val < k := by omega
      simp [retype, reduceCols, hi, hj, a.isLt, mul_comm]
      rfl

end Verif.SvdRef
