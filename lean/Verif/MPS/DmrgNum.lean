import Verif.MPS.Dmrg
import Verif.Solvers.DavidsonC69
import Mathlib.Analysis.InnerProductSpace.PiL2

/-!
# DMRG with numbers

`dmrg` of `Dmrg.lean` with tensors of real or complex numbers: the environments of `LocalMPO` (localmpo.h:542-621), the product of
`LocalOp` (localop.h:324-365), the `davidson` of `Solvers/Davidson.lean` and `svdBond` (mps_impl.h:20-99). Numbers are exact. The legs
of a tensor have fixed places here, so an index is given by its place and its dimension; that products of ITensors match indices
correctly is the subject of `Net/ITensor.lean`. A leg that does not exist in the code (left of site 1, right of site N) has dimension 1.
-/

noncomputable section

namespace Verif.DmrgNum

open Finset Verif.Limits

variable {𝕜 : Type*} [RCLike 𝕜]

/-- A tensor of the state: left link, site, right link. mps.h:28-40 -/
structure Site (𝕜 : Type*) where
  l : Nat
  d : Nat
  r : Nat
  A : Nat → Nat → Nat → 𝕜

/-- The operator: `W i w s' s w'` is the element of tensor `i` with left link `w`, primed site index `s'`, site index `s` and right
link `w'`; `k i` is the dimension of the link between sites `i` and `i+1`. mpo.h:25-60 -/
structure Mpo (𝕜 : Type*) where
  k : Int → Nat
  W : Int → Nat → Nat → Nat → Nat → 𝕜

/-- A tensor of `PH_`: it has the links between sites `bond` and `bond+1`; `val a' w a` for the primed link of the state, the link of
the operator, and the link of the state. localmpo.h:38-60 -/
structure EnvT (𝕜 : Type*) where
  bond : Int
  val : Nat → Nat → Nat → 𝕜

/-- `E *= A; E *= H(i); E *= dag(prime(A))` where the left links are contracted; `A'` is the tensor used for the last product.
localmpo.h:559-570 -/
def absL (k : Nat) (W : Nat → Nat → Nat → Nat → 𝕜) (A' A : Site 𝕜) (E : Nat → Nat → Nat → 𝕜) : Nat → Nat → Nat → 𝕜 :=
  let f1 := fun a' w s b => ∑ a ∈ range A.l, E a' w a * A.A a s b
  let f2 := fun a' s' w' b => ∑ w ∈ range k, ∑ s ∈ range A.d, f1 a' w s b * W w s' s w'
  fun b' w' b => ∑ a' ∈ range A'.l, ∑ s' ∈ range A'.d, f2 a' s' w' b * (starRingEnd 𝕜) (A'.A a' s' b')

/-- The same where the right links are contracted. localmpo.h:598-615 -/
def absR (k : Nat) (W : Nat → Nat → Nat → Nat → 𝕜) (A' A : Site 𝕜) (E : Nat → Nat → Nat → 𝕜) : Nat → Nat → Nat → 𝕜 :=
  let f1 := fun a s b' w' => ∑ b ∈ range A.r, E b' w' b * A.A a s b
  let f2 := fun a s' w b' => ∑ w' ∈ range k, ∑ s ∈ range A.d, f1 a s b' w' * W w s' s w'
  fun a' w a => ∑ b' ∈ range A'.r, ∑ s' ∈ range A'.d, f2 a s' w b' * (starRingEnd 𝕜) (A'.A a' s' b')

/-- A tensor which may be missing; then it is not multiplied with. -/
def valOf (e : Option (EnvT 𝕜)) : Nat → Nat → Nat → 𝕜 := e.elim (fun _ _ _ => 1) EnvT.val

/-- The step of `makeL` and `makeR`: which links are contracted follows from the links the environment has; without an environment the
only link of the end tensor is left over. localmpo.h:542-621 -/
def absorb (M : Mpo 𝕜) (i : Int) (e : Option (EnvT 𝕜)) (A : Site 𝕜) : EnvT 𝕜 :=
  if e.elim (decide (i = 1)) (fun e => decide (e.bond = i - 1)) then ⟨i, absL (M.k (i - 1)) (M.W i) A A (valOf e)⟩
  else ⟨i - 1, absR (M.k i) (M.W i) A A (valOf e)⟩

/-- The places of the product of two neighbouring tensors. -/
abbrev Pl (l d₁ d₂ r : Nat) := Fin l × Fin d₁ × Fin d₂ × Fin r

/-- The space in which `davidson` works. -/
abbrev Block (𝕜 : Type*) [RCLike 𝕜] (l d₁ d₂ r : Nat) := EuclideanSpace 𝕜 (Pl l d₁ d₂ r)

/-- `psi(b)*psi(b+1)`. dmrg.h:418 -/
def blk (A B : Site 𝕜) : Block 𝕜 A.l A.d B.d B.r :=
  WithLp.toLp 2 fun i => ∑ m ∈ range A.r, A.A i.1 i.2.1 m * B.A m i.2.2.1 i.2.2.2

/-- `LocalOp::product` with two sites. When there is a tensor on the left, it is multiplied first, then the two tensors of the operator,
then the tensor on the right if there is one; otherwise the other way round. `phip.noPrime()` renames the result. localop.h:324-365 -/
def product (k₀ k₁ k₂ : Nat) (W₁ W₂ : Nat → Nat → Nat → Nat → 𝕜) (L R : Option (EnvT 𝕜)) {l d₁ d₂ r : Nat} (x : Block 𝕜 l d₁ d₂ r) : Block 𝕜 l d₁ d₂ r :=
  match L with
  | none =>
    let g₁ := fun (a : Fin l) (s₁ : Fin d₁) (s₂ : Fin d₂) (c' : Fin r) w₂ => ∑ c : Fin r, x (a, s₁, s₂, c) * valOf R c' w₂ c
    let g₂ := fun a s₁ (s₂' : Fin d₂) c' w₁ => ∑ w₂ ∈ range k₂, ∑ s₂ : Fin d₂, g₁ a s₁ s₂ c' w₂ * W₂ w₁ s₂' s₂ w₂
    WithLp.toLp 2 fun i => ∑ w₁ ∈ range k₁, ∑ s₁ : Fin d₁, g₂ i.1 s₁ i.2.2.1 i.2.2.2 w₁ * W₁ 0 i.2.1 s₁ w₁
  | some L =>
    let g₁ := fun (a' : Fin l) w (s₁ : Fin d₁) (s₂ : Fin d₂) (c : Fin r) => ∑ a : Fin l, x (a, s₁, s₂, c) * L.val a' w a
    let g₂ := fun a' (s₁' : Fin d₁) w₁ s₂ c => ∑ w ∈ range k₀, ∑ s₁ : Fin d₁, g₁ a' w s₁ s₂ c * W₁ w s₁' s₁ w₁
    let g₃ := fun a' s₁' (s₂' : Fin d₂) w₂ c => ∑ w₁ ∈ range k₁, ∑ s₂ : Fin d₂, g₂ a' s₁' w₁ s₂ c * W₂ w₁ s₂' s₂ w₂
    WithLp.toLp 2 fun i => ∑ w₂ ∈ range k₂, ∑ c : Fin r, g₃ i.1 i.2.1 i.2.2.1 w₂ c * valOf R i.2.2.2 w₂ c

/-- What the calculation depends on besides the operator: the diagonalization of small matrices, random vectors, the options of
`davidson` in each round, what is in uninitialized memory, and the factorization in `svdBond`, which may depend on the round and on the
direction (by singular values or by density matrix, with its truncation and normalization; mps_impl.h:50-79). -/
structure Tools (𝕜 : Type*) [RCLike 𝕜] where
  diag : Nat → (Nat → Nat → 𝕜) → Solvers.Eig 𝕜
  rnd : (l d₁ d₂ r : Nat) → Nat → Block 𝕜 l d₁ d₂ r
  fuel : Nat
  opts : Nat → Solvers.DOpts
  junk : Nat → Nat → 𝕜
  split : Nat → Dir → (l d₁ d₂ r : Nat) → Block 𝕜 l d₁ d₂ r → Site 𝕜 × Site 𝕜

/-- The energy and the vector from the result of `davidson(A,phi,args)`, which returns the first value (iterativesolvers.h:83-97). A
result that is not a number and a normalization which does not end are taken as undefined. -/
def first {E : Type*} : Option (Res (List (Option ℝ) × List E)) → Res (E × ℝ)
  | some (.ok ([some en], [y])) => .ok (y, en)
  | some .throw => .throw
  | _ => .ub

/-- From the product of the two tensors to the new ones: dmrg.h:418-430. `size` and `product` of `LocalOp` stop with an error when both
environments are missing (localop.h:328, 491). -/
def fac (M : Mpo 𝕜) (T : Tools 𝕜) (n : Nat) (psi : MPS (Site 𝕜)) (L R : Option (EnvT 𝕜)) (b : Int) (dir : Dir) : Res ((Site 𝕜 × Site 𝕜) × ℝ) :=
  if L.isNone ∧ R.isNone then .throw
  else
    let A := psi.t b
    let B := psi.t (b + 1)
    let size := A.l * B.r * A.d * B.d
    (first (Solvers.davidson (product (M.k (b - 1)) (M.k b) (M.k (b + 1)) (M.W b) (M.W (b + 1)) L R) T.diag (T.rnd A.l A.d B.d B.r) T.fuel (T.opts n) size size
      T.junk [blk A B])).bind fun q => .ok (T.split n dir A.l A.d B.d B.r q.1, q.2)

/-- The sum of the squares of the elements of a tensor. -/
def frob (A : Site 𝕜) : ℝ := ∑ a ∈ range A.l, ∑ s ∈ range A.d, ∑ c ∈ range A.r, ‖A.A a s c‖ ^ 2

/-- `psi *= 1/norm(psi)` on the tensor of the centre. mps.cc:163-170, 1046-1053 -/
def normalizeSite (A : Site 𝕜) : Site 𝕜 := { A with A := fun a s c => ((1 / Real.sqrt (frob A) : ℝ) : 𝕜) * A.A a s c }

/-- The pieces put together; `write` says in which sweeps the option to write to disk applies. -/
def env (M : Mpo 𝕜) (T : Tools 𝕜) (write : Nat → Bool) : Dmrg.Env (Site 𝕜) (EnvT 𝕜) ℝ where
  absorb := absorb M
  fac := fac M T
  write := write
  norm := normalizeSite

/-- `dmrg(psi,H,sweeps)`: dmrg.h:30-60, 337-470. -/
def dmrg (o : Ops (Site 𝕜)) (M : Mpo 𝕜) (T : Tools 𝕜) (write : Nat → Bool) (fuel n : Nat) (psi : MPS (Site 𝕜)) :=
  Dmrg.dmrg o (env M T write) fuel n psi (LocalMPO.make psi.N none none 2 true)

end Verif.DmrgNum
