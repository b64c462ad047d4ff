import Verif.MPS.Orthogonalize

/-!
# Expectation values and correlation functions

`expect` and `correlationMatrix` (mps.h:874-1108, mps.cc:1547-1700). States are as in `DmrgNum`; an operator of a site is given by its elements.
Numbers are exact and tensors dense. `𝕜` is `ℂ` for the functions `expectC` and `correlationMatrixC`; it is `ℝ` for the others, which throw for complex
tensors. That the site set fits the state (`checkConsistent`, an `assert`) and knows the operators is assumed.
-/

noncomputable section

namespace Verif.Correl

open Finset Verif.Limits
open Verif.DmrgNum

variable {𝕜 : Type*} [RCLike 𝕜]

/-- An operator of a site: `sites.op(name,i)`, by primed value and value. -/
abbrev Op (𝕜 : Type*) := Nat → Nat → 𝕜

/-- `sites.op("A*B",i)`: the product in the order written. siteset.h:409-417 -/
def mulOp (d : Nat) (a b : Op 𝕜) : Op 𝕜 := fun s' s => ∑ x ∈ range d, a s' x * b x s

/-- The arguments of `correlationMatrix`: the operators on all sites and the one named `F`; whether the names begin with `C`
(`isFermionic`, autompo.cc:86-99); whether the names are the same; the argument `isHermitian`, if given. -/
structure Input (𝕜 : Type*) where
  op1 : Int → Op 𝕜
  op2 : Int → Op 𝕜
  F : Int → Op 𝕜
  f1 : Bool
  f2 : Bool
  same : Bool
  herm : Option Bool

/-- `norm(O)` for an operator. -/
def normOp (d : Nat) (a : Op 𝕜) : ℝ := Real.sqrt (∑ s' ∈ range d, ∑ s ∈ range d, ‖a s' s‖ ^ 2)

/-- `norm(O1 / norm(O1) - dag(swapPrime(O2, 0, 1) / norm(O2)))`. mps.cc:1583 -/
def eps (d : Nat) (a b : Op 𝕜) : ℝ := normOp d fun s' s => a s' s / (normOp d a : 𝕜) - (starRingEnd 𝕜) (b s s' / (normOp d b : 𝕜))

/-- `isHermitian`. When the norm of an operator is zero `eps` is not a number and the comparison false. mps.cc:1573-1586 -/
def isHerm (q : Input 𝕜) (d : Nat) : Bool :=
  match q.herm with
  | some b => b
  | none => decide (normOp d (q.op1 1) ≠ 0 ∧ normOp d (q.op2 1) ≠ 0 ∧ eps d (q.op1 1) (q.op2 1) < 1 / 10 ^ 10) || q.same

/-- `L * psi(i)`; `E a a'` is the element for a link and the primed link. mps.cc:1632, 1651, 1689 -/
def mulL (A : Site 𝕜) (E : Nat → Nat → 𝕜) : Nat → Nat → Nat → 𝕜 := fun a' s b => ∑ a ∈ range A.l, E a a' * A.A a s b

/-- The product with an operator of the site. -/
def onSite (d : Nat) (o : Op 𝕜) (X : Nat → Nat → Nat → 𝕜) : Nat → Nat → Nat → 𝕜 := fun a' s' b => ∑ s ∈ range d, X a' s b * o s' s

/-- `* dag(prime(psi(i)))`: the right links are left over. mps.cc:1647, 1661, 1663, 1672, 1684, 1686, 1694 -/
def close (A : Site 𝕜) (X : Nat → Nat → Nat → 𝕜) : Nat → Nat → 𝕜 :=
  fun b b' => ∑ a' ∈ range A.l, ∑ s' ∈ range A.d, X a' s' b * (starRingEnd 𝕜) (A.A a' s' b')

/-- `* dag(prime(psi(i), linds))`: all links are contracted. mps.cc:1637-1640, 1654, 1680 -/
def total (A : Site 𝕜) (X : Nat → Nat → Nat → 𝕜) : 𝕜 :=
  ∑ a' ∈ range A.l, ∑ s' ∈ range A.d, ∑ b ∈ range A.r, X a' s' b * (starRingEnd 𝕜) (A.A a' s' b)

/-- `C[i][j] = v`. -/
def put (C : Nat → Nat → 𝕜) (i j : Nat) (v : 𝕜) : Nat → Nat → 𝕜 := fun x y => if x = i ∧ y = j then v else C x y

/-- `for (auto j=i + 1;j<=end_site;j++)`, `k` rounds from `j` on; `w` says where the numbers go. mps.cc:1648-1665, 1674-1688 -/
def rowLoop (t : Int → Site 𝕜) (fermi : Bool) (F o : Int → Op 𝕜) (nrm2 : ℝ) (w : Nat → 𝕜 → (Nat → Nat → 𝕜) → Nat → Nat → 𝕜) :
    Nat → Int → Nat → (Nat → Nat → 𝕜) → (Nat → Nat → 𝕜) → Nat → Nat → 𝕜
  | 0, _, _, _, C => C
  | k + 1, j, cj, E, C =>
    let X := mulL (t j) E
    let c := total (t j) (onSite (t j).d (o j) X) / (nrm2 : 𝕜)
    rowLoop t fermi F o nrm2 w k (j + 1) (cj + 1) (close (t j) (if fermi then onSite (t j).d (F j) X else X)) (w cj c C)

/-- `for(auto i:site_range)`, `k` rounds from `i` on. mps.cc:1629-1695 -/
def siteLoop (q : Input 𝕜) (herm : Bool) (t : Int → Site 𝕜) (nrm2 : ℝ) : Nat → Int → Nat → (Nat → Nat → 𝕜) → (Nat → Nat → 𝕜) → Nat → Nat → 𝕜
  | 0, _, _, _, C => C
  | k + 1, i, ci, L, C =>
    let d := (t i).d
    let Li := mulL (t i) L
    let C := put C ci ci (total (t i) (onSite d (mulOp d (q.op1 i) (q.op2 i)) Li) / (nrm2 : 𝕜))
    let op1 := if q.f2 then mulOp d (q.op1 i) (q.F i) else q.op1 i
    let C := rowLoop t q.f2 q.F q.op2 nrm2 (fun cj c C => if herm then put (put C ci cj c) cj ci ((starRingEnd 𝕜) c) else put C ci cj c) k (i + 1) (ci + 1)
      (close (t i) (onSite d op1 Li)) C
    let C := if herm then C else
      let op2 := if q.f1 then mulOp d (q.op2 i) (q.F i) else q.op2 i
      let Li21 := close (t i) (onSite d op2 Li)
      rowLoop t q.f1 q.F q.op1 nrm2 (fun cj c C => put C cj ci c) k (i + 1) (ci + 1) (if q.f1 then fun b b' => -Li21 b b' else Li21) C
    siteLoop q herm t nrm2 k (i + 1) (ci + 1) (close (t i) Li) C

/-- `fixRange`: a range without sites stands for all of them. A range is given by its first site and the one after its last. mps.cc:1548-1552 -/
def fixRange (a e : Int) (N : Nat) : Int × Int := if a = e then (1, N + 1) else (a, e)

/-- `correlationMatrixT`: the number of sites and the matrix. `orth` is `orthogonalize()`. mps.cc:1562-1698 -/
def correlationMatrix (o : Ops (Site 𝕜)) (orth : MPS (Site 𝕜) → Res (MPS (Site 𝕜))) (q : Input 𝕜) (a e : Int) (psi : MPS (Site 𝕜)) :
    Res (Nat × (Nat → Nat → 𝕜)) :=
  let herm := isHerm q (psi.t 1).d
  let r := fixRange a e psi.N
  (if isOrtho psi then .ok psi else orth psi).bind fun psi =>
    (position o psi r.1).bind fun psi =>
      let nrm := Real.sqrt (frob (psi.t r.1))
      if q.f1 != q.f2 then .throw
      else
        let n := (r.2 - r.1).toNat
        let L : Nat → Nat → 𝕜 := if r.1 > 1 then fun b b' => if b = b' then 1 else 0 else fun _ _ => 1
        .ok (n, siteLoop q herm psi.t (nrm * nrm) n r.1 0 L fun _ _ => 0)

/-- `psi(i) * sites.op(str_op,i) * dag(prime(psi(i), sites(i)))`. mps.h:912 -/
def expect1 (A : Site 𝕜) (o : Op 𝕜) : 𝕜 := total A (onSite A.d o A.A)

/-- The loop over the sites. mps.h:906-917 -/
def expectLoop (o : Ops (Site 𝕜)) (ops : List (Int → Op 𝕜)) : List Int → MPS (Site 𝕜) → Res (List (List 𝕜))
  | [], _ => .ok []
  | i :: is, psi => (position o psi i).bind fun psi =>
    (expectLoop o ops is psi).bind fun rows => .ok ((ops.map fun x => expect1 (psi.t i) (x i)) :: rows)

/-- `expectT` with a list of sites. mps.h:890-920 -/
def expect (o : Ops (Site 𝕜)) (orth : MPS (Site 𝕜) → Res (MPS (Site 𝕜))) (ops : List (Int → Op 𝕜)) (is : List Int) (psi : MPS (Site 𝕜)) : Res (List (List 𝕜)) :=
  (if isOrtho psi then .ok psi else orth psi).bind fun psi => (TEvol.normalize psi).bind fun psi => expectLoop o ops is psi.1

/-- `expectT` with a range of sites. mps.h:925-936 -/
def expectRange (o : Ops (Site 𝕜)) (orth : MPS (Site 𝕜) → Res (MPS (Site 𝕜))) (ops : List (Int → Op 𝕜)) (a e : Int) (psi : MPS (Site 𝕜)) : Res (List (List 𝕜)) :=
  let r := fixRange a e psi.N
  expect o orth ops ((List.range (r.2 - r.1).toNat).map fun m : Nat => r.1 + m) psi

/-! ## What they are meant to be -/

def one : Op 𝕜 := fun s' s => if s' = s then 1 else 0

/-- The product of operators of different sites, by configurations. -/
def tens (P : Int → Op 𝕜) (N : Nat) (σ' σ : Int → Nat) : 𝕜 := ∏ k ∈ range N, P ((k : Int) + 1) (σ' ((k : Int) + 1)) (σ ((k : Int) + 1))

/-- The operator `o` of site `i`; if it is fermionic `F` acts on all sites before. -/
def jw (f : Bool) (F o : Int → Op 𝕜) (i : Int) : Int → Op 𝕜 := fun k => if k = i then o k else if f ∧ k < i then F k else one

/-- The expectation value `<φ|A B|φ>/<φ|φ>` of the product of two operators. -/
def corr (dd : Int → Nat) (N : Nat) (φ : (Int → Nat) → 𝕜) (A B : (Int → Nat) → (Int → Nat) → 𝕜) : 𝕜 :=
  (sumCfg dd N (fun σ' => sumCfg dd N (fun τ => sumCfg dd N (fun σ => (starRingEnd 𝕜) (φ σ') * A σ' τ * B τ σ * φ σ) fun _ => 0) fun _ => 0) fun _ => 0) /
    (normSq dd N φ : 𝕜)

/-- The expectation value `<φ|A|φ>/<φ|φ>`. -/
def expv (dd : Int → Nat) (N : Nat) (φ : (Int → Nat) → 𝕜) (A : (Int → Nat) → (Int → Nat) → 𝕜) : 𝕜 :=
  (sumCfg dd N (fun σ' => sumCfg dd N (fun σ => (starRingEnd 𝕜) (φ σ') * A σ' σ * φ σ) fun _ => 0) fun _ => 0) / (normSq dd N φ : 𝕜)

/-- What a fermionic operator has to satisfy: it anticommutes with `F`, which is Hermitian and its own inverse. -/
structure FermiOK (d : Nat) (F o : Op 𝕜) : Prop where
  inv : ∀ s' < d, ∀ s < d, mulOp d F F s' s = one s' s
  anti : ∀ s' < d, ∀ s < d, mulOp d F o s' s = -mulOp d o F s' s
  herm : ∀ s' < d, ∀ s < d, F s' s = (starRingEnd 𝕜) (F s s')

end Verif.Correl
