import Verif.MPS.TEvolProps
import Verif.Decomp.TruncateProps

/-!
# Product of an operator and a state

`applyMPO` with its default method `DensityMatrix` (mpoalgs.cc:119-151, 186-303). State and operator are as in `DmrgNum`; `dd` are the
dimensions of the site indices of the result. The diagonalization of a Hermitian matrix is given by its specification, the choice of the
number of states is `truncate` of `Decomp/Truncate.lean`. Numbers are exact; there are no quantum numbers. Writing the environments to
disk is left out.
-/

noncomputable section

namespace Verif.ApplyMPO

open Finset Verif.Limits Verif.DmrgNum

variable {𝕜 : Type*} [RCLike 𝕜]

/-- `E[j]`: link of the state, link of the operator, and the primed ones. -/
abbrev Env (𝕜 : Type*) := Nat → Nat → Nat → Nat → 𝕜

/-- `E[j-1]*psi(j)*K(j)*dag(Kc(j))*dag(psic(j))`; all indices of `Kc` and `psic` are primed except the site index of the result.
mpoalgs.cc:234-235, 240-243 -/
def envStep (k d : Nat) (W : Nat → Nat → Nat → Nat → 𝕜) (A : Site 𝕜) (E : Env 𝕜) : Env 𝕜 :=
  let f₁ := fun w a₁ w₁ s b => ∑ a ∈ range A.l, E a w a₁ w₁ * A.A a s b
  let f₂ := fun a₁ w₁ s' v b => ∑ w ∈ range k, ∑ s ∈ range A.d, f₁ w a₁ w₁ s b * W w s' s v
  let f₃ := fun a₁ s₁ b v v₁ => ∑ w₁ ∈ range k, ∑ s' ∈ range d, f₂ a₁ w₁ s' v b * (starRingEnd 𝕜) (W w₁ s' s₁ v₁)
  fun b v b₁ v₁ => ∑ a₁ ∈ range A.l, ∑ s₁ ∈ range A.d, f₃ a₁ s₁ b v v₁ * (starRingEnd 𝕜) (A.A a₁ s₁ b₁)

/-- The environments; there is nothing left of site 1. mpoalgs.cc:239-249 -/
def envs (M : Mpo 𝕜) (dd : Int → Nat) (t : Int → Site 𝕜) : Nat → Env 𝕜
  | 0 => fun _ _ _ _ => 1
  | n + 1 => envStep (M.k n) (dd (n + 1)) (M.W (n + 1)) (t (n + 1)) (envs M dd t n)

/-- `O = psi(N)*K(N)`: links on the left, site, new link on the right. mpoalgs.cc:253 -/
def firstO (W : Nat → Nat → Nat → Nat → 𝕜) (A : Site 𝕜) : Nat → Nat → Nat → Nat → 𝕜 :=
  fun a w s' l => ∑ s ∈ range A.d, A.A a s l * W w s' s 0

/-- `rho = E[j-1] * O * dag(prime(O,rand_plev))`. mpoalgs.cc:255, 283 -/
def rho (l k : Nat) (E : Env 𝕜) (O : Nat → Nat → Nat → Nat → 𝕜) : Nat → Nat → Nat → Nat → 𝕜 :=
  let f := fun a₁ w₁ s b => ∑ a ∈ range l, ∑ w ∈ range k, E a w a₁ w₁ * O a w s b
  fun s b s₁ b₁ => ∑ a₁ ∈ range l, ∑ w₁ ∈ range k, f a₁ w₁ s b * (starRingEnd 𝕜) (O a₁ w₁ s₁ b₁)

/-- `O*U*psi(j-1)*K(j-1)`, where site `j` has dimension `d` and the link on its right dimension `r`. `A` and `W` are the tensors at `j-1`,
`l` and `k` the dimensions of the links between `j-1` and `j`. mpoalgs.cc:265, 287 -/
def nextO (d r l k : Nat) (O : Nat → Nat → Nat → Nat → 𝕜) (U : Nat → Nat → Nat → 𝕜) (A : Site 𝕜) (W : Nat → Nat → Nat → Nat → 𝕜) :
    Nat → Nat → Nat → Nat → 𝕜 :=
  let g₁ := fun a w m => ∑ s ∈ range d, ∑ b ∈ range r, O a w s b * U s b m
  let g₂ := fun a' s w m => ∑ a ∈ range l, g₁ a w m * A.A a' s a
  fun a' w' s' m => ∑ w ∈ range k, ∑ s ∈ range A.d, g₂ a' s w m * W w' s' s w

/-- What the calculation depends on: the eigenvalues of a Hermitian matrix, in descending order, with the tensor `U` of
`diagPosSemiDef`, whose elements are the conjugates of those of the eigenvectors (hermitian.cc:124-126), and `REAL_EPSILON`. -/
structure Tools (𝕜 : Type*) where
  eig : Nat → Nat → (Nat → Nat → Nat → Nat → 𝕜) → List ℝ × (Nat → Nat → Nat → 𝕜)
  eps : ℝ

/-- The options which are used. Others, such as `MinDim`, are not passed on. mpoalgs.cc:204-211, 222 -/
structure Opts where
  cutoff : ℝ
  maxdim : Option Int
  respect : Bool
  norml : Bool

/-- `diagPosSemiDef(rho,U,D,args)`: the number of states and `U`. decomp.cc:726-788, hermitian.cc:40-180, tensor/algs_impl.h:104-139 -/
def diagPosSemiDef (T : Tools 𝕜) (cutoff : ℝ) (maxdim : Option Int) (respect : Bool) (d r : Nat) (ρ : Nat → Nat → Nat → Nat → 𝕜) :
    Res (Nat × (Nat → Nat → Nat → 𝕜)) :=
  if d * r = 0 then .throw
  else
    let q := T.eig d r ρ
    let maxdim := maxdim.getD (d * r : Nat)
    (Decomp.truncate T.eps ⟨maxdim, 1, cutoff, false, true, respect⟩ q.1).bind fun out =>
      if (out.P.length : Int) > maxdim then .throw else .ok (out.P.length, q.2)

/-- The number given for `MaxDim` at site `j`. At the last site there is none, when the user gives none. mpoalgs.cc:206, 272-282 -/
def maxAt (o : Opts) (M : Mpo 𝕜) (t : Int → Site 𝕜) (N j : Nat) : Option Int :=
  match o.maxdim with
  | some m => some m
  | none => if j = N then none else some ((t j).l * M.k ((j : Int) - 1) : Nat)

/-- From site `n+1` to the left; `r` is the dimension of the link on the right of that site. mpoalgs.cc:253-293 -/
def sweep (T : Tools 𝕜) (o : Opts) (M : Mpo 𝕜) (dd : Int → Nat) (t : Int → Site 𝕜) (N : Nat) :
    Nat → (Nat → Nat → Nat → Nat → 𝕜) → Nat → (Int → Site 𝕜) → Res (Int → Site 𝕜)
  | 0, O, r, res => .ok (Function.update res 1 ⟨1, dd 1, r, fun a s b => O a 0 s b⟩)
  | n + 1, O, r, res =>
    let j : Int := n + 1 + 1
    let ρ := rho (t j).l (M.k (n + 1)) (envs M dd t (n + 1)) O
    (diagPosSemiDef T o.cutoff (maxAt o M t N (n + 2)) o.respect (dd j) r ρ).bind fun q =>
      sweep T o M dd t N n (nextO (dd j) r (t j).l (M.k (n + 1)) O q.2 (t (n + 1)) (M.W (n + 1))) q.1
        (Function.update res j ⟨q.1, dd j, r, fun m s b => (starRingEnd 𝕜) (q.2 s b m)⟩)

/-- `if(normalize) O /= norm(O)`; the division by zero, which gives numbers that are not numbers, is taken as undefined.
mpoalgs.cc:292-293 -/
def finish (o : Opts) (N : Nat) (res : Int → Site 𝕜) : Res (MPS (Site 𝕜)) :=
  if o.norml then
    if frob (res 1) = 0 then .ub else .ok ⟨N, Function.update res 1 (normalizeSite (res 1)), 0, 2⟩
  else .ok ⟨N, res, 0, 2⟩

/-- `applyMPO(K,psi,args)`. With one site the environment `E[0]`, which does not exist, is multiplied with: an error.
mpoalgs.cc:186-303 -/
def applyMPO (T : Tools 𝕜) (o : Opts) (M : Mpo 𝕜) (dd : Int → Nat) (psi : MPS (Site 𝕜)) : Res (MPS (Site 𝕜)) :=
  if psi.N ≤ 1 then .throw
  else
    (sweep T o M dd psi.t psi.N (psi.N - 1) (firstO (M.W psi.N) (psi.t psi.N)) (psi.t psi.N).r psi.t).bind fun res => finish o psi.N res

/-! ## Specification -/

/-- The operator acts on a wavefunction. -/
def opWave (M : Mpo 𝕜) (N : Nat) (di : Int → Nat) (φ : (Int → Nat) → 𝕜) (σ' : Int → Nat) : 𝕜 :=
  sumCfg di N (fun σ => elem M N σ' σ * φ σ) fun _ => 0

/-- What `diagHermitian` promises for a Hermitian matrix `H`: the eigenvalues in descending order, orthonormal columns, and
`H = dag(U)*D*prime(U)`. decomp.h:160-206 -/
structure EigOK (T : Tools 𝕜) : Prop where
  eps : 0 < T.eps
  len : ∀ d r H, (T.eig d r H).1.length = d * r
  desc : ∀ d r H, Decomp.Desc (T.eig d r H).1
  ortho : ∀ d r H, ∀ m < d * r, ∀ m' < d * r,
    ∑ s ∈ range d, ∑ b ∈ range r, (starRingEnd 𝕜) ((T.eig d r H).2 s b m) * (T.eig d r H).2 s b m' = if m = m' then 1 else 0
  eig : ∀ d r H, (∀ s < d, ∀ b < r, ∀ s' < d, ∀ b' < r, H s b s' b' = (starRingEnd 𝕜) (H s' b' s b)) →
    ∀ s < d, ∀ b < r, ∀ s' < d, ∀ b' < r,
      H s b s' b' = ∑ m ∈ range (d * r), (starRingEnd 𝕜) ((T.eig d r H).2 s b m) * (((T.eig d r H).1.getD m 0 : ℝ) : 𝕜) * (T.eig d r H).2 s' b' m

end Verif.ApplyMPO
