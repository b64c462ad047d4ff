import Verif.MPS.SvdBond
import Verif.MPS.SumNum

/-!
# The product of two operators: `nmultMPO`

`nmultMPO(A,B,args)` (mpoalgs.cc:33-109) multiplies two operators in the form of MPOs: from the left the product of the tensors is
decomposed with `denmatDecomp`, the last two sites with `svdBond`, and `orthogonalize` follows. Property C97.

An operator is a chain of `Site`s as in `Orthogonalize.lean`, with the pair of its site indices as site: `A` has the index `σ` of its own and
the index `x` which it shares with `B`, together `σ * dm + x`; `B` has `x * dt + τ`; the result has `σ * dt + τ`. Numbers are exact and there
are no quantum numbers. `position`, `denmatDecomp`, `svdBond` and `orthogonalize` are those of `Limits.lean`, `SvdBond.lean` and
`Orthogonalize.lean`. Which indices are combined is modelled for the last bond, where it matters.
-/

noncomputable section

namespace Verif.NMult

open Finset Verif.Limits Verif.SvdBond Matrix
open Verif.DmrgNum hiding Tools

variable {𝕜 : Type*} [RCLike 𝕜]

/-- The defaults. (`RespectDegenerate` is given.) mpoalgs.cc:39-40 -/
def withDefaults (o : Opts) : Opts := { o with cutoff := some (o.cutoff.getD (1 / 10 ^ 14)) }

/-- `nfork * A(i) * B(i)`; without `nfork` for the first site, whose left links have dimension 1. mpoalgs.cc:77-84 -/
def clust (dm dt : ℕ) (A B : Site 𝕜) (nf : ℕ → ℕ → ℕ → 𝕜) : ℕ → ℕ → ℕ → ℕ → 𝕜 :=
  let f := fun m b σ x c => ∑ a ∈ range A.l, nf m a b * A.A a (σ * dm + x) c
  fun m κ c e => ∑ b ∈ range B.l, ∑ x ∈ range dm, f m b (κ / dt) x c * B.A b (x * dt + κ % dt) e

/-- What a round of the loop leaves behind: the dimension of the new link, `nfork`, and `res`. -/
structure St (𝕜 : Type*) where
  m : ℕ
  nf : ℕ → ℕ → ℕ → 𝕜
  res : MPS (Site 𝕜)

/-- A round of the loop before `i == N-1`, at site `i`. The tensor with indices only that is put at the next site is left out; that the site
counts as modified is not. mpoalgs.cc:75-94 -/
def step (T : Tools 𝕜) (o : Opts) (d dm dt : Int → ℕ) (A B : Int → Site 𝕜) (i : Int) (s : St 𝕜) : Res (St 𝕜) :=
  let M : Matrix (Fin s.m × Fin (d i)) (Fin (A i).r × Fin (B i).r) 𝕜 :=
    Matrix.of fun p q => clust (dm i) (dt i) (A i) (B i) s.nf p.1 p.2 q.1 q.2
  (denmat (P := Empty) T o M none).bind fun q =>
    (set s.res i ⟨s.m, d i, q.1, fun m κ k => if h : m < s.m ∧ κ < d i ∧ k < q.1 then q.2.1 (⟨m, h.1⟩, ⟨κ, h.2.1⟩) ⟨k, h.2.2⟩ else 0⟩).bind fun res =>
      (ref res (i + 1)).bind fun res =>
        .ok ⟨q.1, fun k c e => if h : k < q.1 ∧ c < (A i).r ∧ e < (B i).r then q.2.2 ⟨k, h.1⟩ (⟨c, h.2.1⟩, ⟨e, h.2.2⟩) else 0, res⟩

/-- The first `n` rounds; before them `res = A`, and site 1 counts as modified. The tensors in places 0 and `N+1` are default constructed
(mps.cc:30-36). mpoalgs.cc:71-94 -/
def rounds (T : Tools 𝕜) (o : Opts) (d dm dt : Int → ℕ) (A : MPS (Site 𝕜)) (B : Int → Site 𝕜) : ℕ → Res (St 𝕜)
  | 0 => (ref A 1).map fun res => ⟨1, fun _ _ _ => 1, { res with t := fun i => if 1 ≤ i ∧ i ≤ A.N then res.t i else ⟨0, 0, 0, fun _ _ _ => 0⟩ }⟩
  | n + 1 => (rounds T o d dm dt A B n).bind (step T o d dm dt A.t B (n + 1))

/-- The last product: `clust * A(N) * B(N)`. mpoalgs.cc:96 -/
def block (d dm dt : Int → ℕ) (A B : Int → Site 𝕜) (n : ℕ) (s : St 𝕜) : Block 𝕜 s.m (d (n + 1)) (d (n + 1 + 1)) 1 :=
  let C := clust (dm (n + 1)) (dt (n + 1)) (A (n + 1)) (B (n + 1)) s.nf
  WithLp.toLp 2 fun i =>
    clust (dm (n + 1 + 1)) (dt (n + 1 + 1)) (A (n + 1 + 1)) (B (n + 1 + 1)) (fun _ c e => C i.1 i.2.1 c e) 0 i.2.2.1 0 0

/-! ### The indices at the last bond -/

/-- The indices at the last two sites: the link that was made, the link of `A`, and the site indices of `A`, of `B`, and those they share. -/
inductive Ix | mid | lA | sA (i : Bool) | sB (i : Bool) | both (i : Bool)
deriving DecidableEq

/-- The indices of `res(N-1)`: `ITensor(mid,sA,sB,rightLinkIndex)`. mpoalgs.cc:72, 93 -/
def indsB : List Ix := [.mid, .sA false, .sB false, .lA]

/-- The indices of `res(N)`, which is still `A(N)`. mpoalgs.cc:71 -/
def indsN : List Ix := [.lA, .sA true, .both true]

/-- The indices of the product. mpoalgs.cc:96 -/
def indsAA : List Ix := [.mid, .sA false, .sB false, .sA true, .sB true]

/-- `cinds` in `denmatDecomp`: the indices of the tensor to be orthogonal which the other one does not have. decomp.h:368-374 -/
def cinds (orth oc : List Ix) : List Ix := orth.filter (· ∉ oc)

/-- A combiner can only be applied if the tensor has all of its indices; otherwise it is an error (with quantum numbers only in debug mode).
combiner.cc:83-141, qcombiner.cc:132-144 -/
def combinable (c AA : List Ix) : Bool := c.all (· ∈ AA)

/-- The factorization in `svdBond(N-1,nfork,Fromright,args)`. With `svd` only the indices of `res(N-1)` are used (decomp.cc:188-197); with
`denmatDecomp` those of `res(N)` are combined. mps_impl.h:50-72, decomp.h:368-380 -/
def last (T : Tools 𝕜) (o : Opts) (l d₁ d₂ : ℕ) (y : Block 𝕜 l d₁ d₂ 1) : Res (Site 𝕜 × Site 𝕜) :=
  open Classical in
  if useSvd o then split T o none .right l d₁ d₂ 1 y
  else if combinable (cinds indsN indsB) indsAA then split T o none .right l d₁ d₂ 1 y
  else .throw

/-- `nmultMPO(A,B,args)`. With one site the loop does not run, and `clust`, which is default constructed, is multiplied with: an error.
`T'` is for `orthogonalize`, which is called with its defaults. mpoalgs.cc:33-109 -/
def nmult (G : Ops (Site 𝕜)) (T : Tools 𝕜) (T' : ApplyMPO.Tools 𝕜) (o : Opts) (d dm dt : Int → ℕ) (A B : MPS (Site 𝕜)) : Res (MPS (Site 𝕜)) :=
  if A.N ≠ B.N then .throw
  else
    (position G A 1).bind fun A => (position G B 1).bind fun B =>
      if B.N < 2 then .throw
      else
        let n := B.N - 2
        (rounds T (withDefaults o) d dm dt A B.t n).bind fun s =>
          (last T (withDefaults o) s.m (d (n + 1)) (d (n + 1 + 1)) (block d dm dt A.t B.t n s)).bind fun p =>
            (svdBond s.res (n + 1) p .right).bind fun res => Orthog.orthogonalize T' SumNum.defaults res

end Verif.NMult
