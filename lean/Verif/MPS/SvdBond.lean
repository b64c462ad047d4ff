import Verif.MPS.DmrgNum
import Verif.Decomp.TruncateProps

/-!
# The factorization in `svdBond`

`MPS::svdBond` (mps_impl.h:20-99) replaces two neighbouring tensors by a factorization of a tensor `AA`: by singular values, or by the
eigenvectors of a density matrix (`denmatDecomp`, decomp.h:318-418), to which a noise term can be added (`LocalOp::deltaRho`,
localop.h:376-406). Property C96. What it does to the orthogonality limits is in `Limits.lean`.

The tensor `AA` is seen as a matrix between the indices of the two sites; combining indices is the subject of C26. The diagonalization
of a Hermitian matrix and the singular value decomposition are given by their specification (C93), the number of states kept is chosen
by `truncate` of `Decomp/Truncate.lean`. Numbers are exact and there are no quantum numbers. The options `UseOrigM`, `TraceReIm` and
`ShowEigs` and the tags are left out.
-/

noncomputable section

namespace Verif.SvdBond

open Finset Verif.Limits Verif.DmrgNum Matrix

variable {𝕜 : Type*} [RCLike 𝕜]

/-- `diagHermitian` and `SVD` of `tensor/algs_impl.h`, for a matrix whose rows (and columns) are pairs of indices: the eigenvalues from
the largest on with the eigenvectors, and the singular values with `U` and `V`. `eps` is `REAL_EPSILON`. -/
structure Tools (𝕜 : Type*) where
  eig : (a b : ℕ) → Matrix (Fin a × Fin b) (Fin a × Fin b) 𝕜 → (Fin (a * b) → ℝ) × Matrix (Fin a × Fin b) (Fin (a * b)) 𝕜
  svd : (a b c d : ℕ) → Matrix (Fin a × Fin b) (Fin c × Fin d) 𝕜 →
    Matrix (Fin a × Fin b) (Fin (min (a * b) (c * d))) 𝕜 × (Fin (min (a * b) (c * d)) → ℝ) × Matrix (Fin c × Fin d) (Fin (min (a * b) (c * d))) 𝕜
  eps : ℝ

/-- The options. `none`: not given. -/
structure Opts where
  cutoff : Option ℝ
  maxdim : Option Int
  mindim : Int
  trunc : Option Bool
  absolute : Bool
  rel : Bool
  respect : Bool
  norml : Bool
  useSVD : Bool
  noise : ℝ

/-- `do_truncate`. hermitian.cc:77-78, svd.cc:449-452 -/
def Opts.doTrunc (o : Opts) : Bool := o.trunc.getD (o.cutoff.isSome || o.maxdim.isSome)

/-- `reduceCols`: the first `k` columns. mat_impl.h:21-29 -/
def cutCols {R : Type*} {n : ℕ} (U : Matrix R (Fin n) 𝕜) (k : ℕ) : Matrix R (Fin k) 𝕜 :=
  Matrix.of fun i j => if h : j.val < n then U i ⟨j.val, h⟩ else 0

/-! ### The density matrix -/

/-- The end of `deltaRho`: `drho *= dag(prime(drho,ci))`, and the mean with its adjoint. localop.h:399-403 -/
def drho {R P : Type*} [Fintype P] (X : Matrix R P 𝕜) : Matrix R R 𝕜 := (2 : 𝕜)⁻¹ • (X * Xᴴ + (X * Xᴴ)ᴴ)

/-- The trace that is divided by. decomp.h:392 -/
def tr {R : Type*} [Fintype R] (ρ : Matrix R R 𝕜) : ℝ := ∑ i, RCLike.re (ρ i i)

/-- `rho` in `denmatDecomp`; `X` is the tensor `drho` of `deltaRho`, if there is a projected operator. decomp.h:382-395 -/
def rho {R C P : Type*} [Fintype R] [Fintype C] [Fintype P] (noise : ℝ) (A : Matrix R C 𝕜) (X : Option (Matrix R P 𝕜)) : Matrix R R 𝕜 :=
  match X with
  | none => A * Aᴴ
  | some X =>
    open Classical in
    if noise > 0 then
      let ρ := A * Aᴴ + (noise : 𝕜) • drho X
      if tr ρ > 1 / 10 ^ 16 then ((1 / tr ρ : ℝ) : 𝕜) • ρ else ρ
    else A * Aᴴ

/-- The number of states kept by `diag_hermitian` of a matrix with `n` rows and eigenvalues `P`. hermitian.cc:73-96, 127-146 -/
def keepD (eps : ℝ) (o : Opts) (n : ℕ) (P : List ℝ) : Res ℕ :=
  if o.doTrunc then
    let maxdim := o.maxdim.getD n
    (Decomp.truncate eps ⟨maxdim, o.mindim, o.cutoff.getD 0, o.absolute, o.rel, o.respect⟩ P).bind fun out =>
      if (out.P.length : Int) > maxdim then .throw else .ok out.P.length
  else .ok n

/-- `denmatDecomp`: the dimension of the new index, the orthogonal tensor and the new centre. `diag_hermitian` returns the conjugates of
the eigenvectors (hermitian.cc:125); an empty matrix is refused (algs_impl.h:104). decomp.h:378-414 -/
def denmat {C P : Type*} [Fintype C] [Fintype P] (T : Tools 𝕜) (o : Opts) {a b : ℕ} (A : Matrix (Fin a × Fin b) C 𝕜)
    (X : Option (Matrix (Fin a × Fin b) P 𝕜)) : Res (Σ k, Matrix (Fin a × Fin b) (Fin k) 𝕜 × Matrix (Fin k) C 𝕜) :=
  if a * b < 1 then .throw
  else
    let q := T.eig a b (rho o.noise A X)
    (keepD T.eps o (a * b) (List.ofFn q.1)).map fun k =>
      let U := (cutCols q.2 k).map star
      ⟨k, U.map star, Uᵀ * A⟩

/-- `norm` of a tensor. -/
def nrm {R C : Type*} [Fintype R] [Fintype C] (A : Matrix R C 𝕜) : ℝ := Real.sqrt (∑ i, ∑ j, ‖A i j‖ ^ 2)

/-- The normalization of the centre after `denmatDecomp`. mps_impl.h:73-78 -/
def normD {R C : Type*} [Fintype R] [Fintype C] (o : Opts) (A : Matrix R C 𝕜) : Matrix R C 𝕜 :=
  open Classical in
  if o.norml then if nrm A > 1 / 10 ^ 16 then ((1 / nrm A : ℝ) : 𝕜) • A else A else A

/-! ### Singular values -/

/-- The number of states kept by `svd`; `P` are the squares of the singular values. svd.cc:75-119 -/
def keepS (eps : ℝ) (o : Opts) (n : ℕ) (P : List ℝ) : Res ℕ :=
  if o.doTrunc then
    (Decomp.truncate eps ⟨o.maxdim.getD 5000, o.mindim, o.cutoff.getD (1 / 10 ^ 15), o.absolute, o.rel, o.respect⟩ P).map fun out => out.P.length
  else .ok n

/-- `D` after truncation and, if asked for, `D *= 1./norm(D)`; the division by zero, which gives numbers that are not numbers, is taken
as undefined. svd.cc:117, mps_impl.h:57-60 -/
def cutD {n : ℕ} (o : Opts) (D : Fin n → ℝ) (k : ℕ) : Res (Fin k → ℝ) :=
  let D' : Fin k → ℝ := fun j => if h : j.val < n then D ⟨j.val, h⟩ else 0
  let s := Real.sqrt (∑ j, D' j ^ 2)
  open Classical in
  if o.norml then if s = 0 then .ub else .ok fun j => 1 / s * D' j else .ok D'

/-- The branch with `svd`: with noise it is an error (decomp.cc:169-170); `V` is conjugated (svd.cc:99), so that `U*D*V` is the tensor;
`D` is multiplied into the new centre. mps_impl.h:50-65 -/
def bySvd (T : Tools 𝕜) (o : Opts) (dir : Dir) {a b c d : ℕ} (A : Matrix (Fin a × Fin b) (Fin c × Fin d) 𝕜) :
    Res (Σ k, Matrix (Fin a × Fin b) (Fin k) 𝕜 × Matrix (Fin k) (Fin c × Fin d) 𝕜) :=
  open Classical in
  if o.noise > 0 then .throw
  else
    let q := T.svd a b c d A
    (keepS T.eps o (min (a * b) (c * d)) (List.ofFn fun j => q.2.1 j * q.2.1 j)).bind fun k =>
      (cutD o q.2.1 k).map fun D =>
        let U := cutCols q.1 k
        let V := ((cutCols q.2.2 k).map star)ᵀ
        let D : Matrix (Fin k) (Fin k) 𝕜 := Matrix.diagonal fun j => (D j : 𝕜)
        match dir with
        | .left => ⟨k, U, D * V⟩
        | .right => ⟨k, U * D, V⟩

/-! ### The tensors -/

/-- The projected operator which `svdBond` is given: the tensors of the operator at the two sites, the dimensions of its links, and the
environments. localop.h:38-60 -/
structure PH (𝕜 : Type*) where
  k₀ : ℕ
  k₁ : ℕ
  k₂ : ℕ
  W₁ : ℕ → ℕ → ℕ → ℕ → 𝕜
  W₂ : ℕ → ℕ → ℕ → ℕ → 𝕜
  L : Option (EnvT 𝕜)
  R : Option (EnvT 𝕜)

/-- `AA*L*Op1`, without primes; `AA*Op1` if there is no `L`. localop.h:385-397 -/
def noiseL (q : PH 𝕜) {l d₁ d₂ r : ℕ} (y : Block 𝕜 l d₁ d₂ r) : Matrix (Fin l × Fin d₁) ((Fin d₂ × Fin r) × Fin q.k₁) 𝕜 :=
  Matrix.of fun i j =>
    match q.L with
    | none => ∑ s : Fin d₁, y (i.1, s, j.1.1, j.1.2) * q.W₁ 0 i.2 s j.2
    | some L => ∑ w ∈ range q.k₀, ∑ s : Fin d₁, (∑ a : Fin l, y (a, s, j.1.1, j.1.2) * L.val i.1 w a) * q.W₁ w i.2 s j.2

/-- `AA*R*Op2`. localop.h:391-397 -/
def noiseR (q : PH 𝕜) {l d₁ d₂ r : ℕ} (y : Block 𝕜 l d₁ d₂ r) : Matrix (Fin d₂ × Fin r) ((Fin l × Fin d₁) × Fin q.k₁) 𝕜 :=
  Matrix.of fun i j =>
    match q.R with
    | none => ∑ s : Fin d₂, y (j.1.1, j.1.2, s, i.2) * q.W₂ j.2 i.1 s 0
    | some R => ∑ w ∈ range q.k₂, ∑ s : Fin d₂, (∑ c : Fin r, y (j.1.1, j.1.2, s, c) * R.val i.2 w c) * q.W₂ j.2 i.1 s w

/-- `AA` as a matrix between the two sites. -/
def toMat {l d₁ d₂ r : ℕ} (y : Block 𝕜 l d₁ d₂ r) : Matrix (Fin l × Fin d₁) (Fin d₂ × Fin r) 𝕜 :=
  Matrix.of fun i j => y (i.1, i.2, j.1, j.2)

/-- The tensors of the two sites. -/
def sites {l d₁ d₂ r : ℕ} (k : ℕ) (A : Matrix (Fin l × Fin d₁) (Fin k) 𝕜) (B : Matrix (Fin k) (Fin d₂ × Fin r) 𝕜) : Site 𝕜 × Site 𝕜 :=
  (⟨l, d₁, k, fun a s m => if h : a < l ∧ s < d₁ ∧ m < k then A (⟨a, h.1⟩, ⟨s, h.2.1⟩) ⟨m, h.2.2⟩ else 0⟩,
    ⟨k, d₂, r, fun m s c => if h : m < k ∧ s < d₂ ∧ c < r then B ⟨m, h.1⟩ (⟨s, h.2.1⟩, ⟨c, h.2.2⟩) else 0⟩)

/-- Which method is used. mps_impl.h:50 -/
def useSvd (o : Opts) : Prop := o.useSVD = true ∨ (o.noise = 0 ∧ o.cutoff.getD (1 / 10 ^ 15) < 1 / 10 ^ 12)

/-- The factorization in `svdBond(b,AA,dir,PH,args)`: the two new tensors. mps_impl.h:36-79 -/
def split (T : Tools 𝕜) (o : Opts) (ph : Option (PH 𝕜)) (dir : Dir) (l d₁ d₂ r : ℕ) (y : Block 𝕜 l d₁ d₂ r) : Res (Site 𝕜 × Site 𝕜) :=
  open Classical in
  if useSvd o then (bySvd T o dir (toMat y)).map fun q => sites q.1 q.2.1 q.2.2
  else
    match dir with
    | .left =>
      match ph with
      | none => (denmat (P := Empty) T o (toMat y) none).map fun q => sites q.1 q.2.1 (normD o q.2.2)
      | some h => (denmat T o (toMat y) (some (noiseL h y))).map fun q => sites q.1 q.2.1 (normD o q.2.2)
    | .right =>
      match ph with
      | none => (denmat (P := Empty) T o (toMat y)ᵀ none).map fun q => sites q.1 (normD o q.2.2)ᵀ q.2.1ᵀ
      | some h => (denmat T o (toMat y)ᵀ (some (noiseR h y))).map fun q => sites q.1 (normD o q.2.2)ᵀ q.2.1ᵀ

end Verif.SvdBond
