import Mathlib.Algebra.Field.Rat
import Mathlib.Data.Matrix.Mul
import Mathlib.LinearAlgebra.Matrix.Notation
import Verif.AutoMPO.Exact

/-!
# Model of the operators of sites with fermions

Sources: `/repo/itensor/mps/siteset.h` (`SiteSet::op`), `/repo/itensor/itensor.cc` (`multSiteOps`),
`/repo/itensor/mps/sites/fermion.h`, `/repo/itensor/mps/sites/electron.h`, `/repo/itensor/mps/sites/tj.h`.

An operator is the matrix of its elements: rows are the values of the primed site index, columns those of the site index.
Elements are rational numbers.
-/

namespace Verif.AutoMPO

/-- The calls of `Op.set(s,sP,x)`, each with the values of `s` and `sP` from 1. -/
def setCalls (d : Nat) (l : List (Nat × Nat × ℚ)) : Matrix (Fin d) (Fin d) ℚ :=
  Matrix.of fun r c => l.foldl (fun x p => if p.1 = c.val + 1 ∧ p.2.1 = r.val + 1 then p.2.2 else x) 0

/-- The search for an operator by its name, `none` if the site throws. -/
def lookup (d : Nat) (tab : List (Name × List (Nat × Nat × ℚ))) (op : Name) : Option (Matrix (Fin d) (Fin d) ℚ) :=
  (tab.find? fun p => p.1 = op).map fun p => setCalls d p.2

/-- Further names of operators. -/
def nFermiPhase : Name := ['F', 'e', 'r', 'm', 'i', 'P', 'h', 'a', 's', 'e']
def nN : Name := ['N']
def nNup : Name := ['N', 'u', 'p']
def nNdn : Name := ['N', 'd', 'n']
def nNtot : Name := ['N', 't', 'o', 't']
def nNupdn : Name := ['N', 'u', 'p', 'd', 'n']
def nSz : Name := ['S', 'z']
def nSx : Name := ['S', 'x']
def nSp : Name := ['S', '+']
def nSm : Name := ['S', '-']
def nS2 : Name := ['S', '2']

/-- `FermionSite::op` (sites/fermion.h:96-155). -/
def fermionSite : Name → Option (Matrix (Fin 2) (Fin 2) ℚ) := lookup 2
  [(nN, [(2, 2, 1)]), (['n'], [(2, 2, 1)]), (nC, [(2, 1, 1)]), (nCdag, [(1, 2, 1)]), (nA, [(2, 1, 1)]),
    (nAdag, [(1, 2, 1)]), (nF, [(1, 1, 1), (2, 2, -1)]), (nFermiPhase, [(1, 1, 1), (2, 2, -1)]),
    (['p', 'r', 'o', 'j', 'E', 'm', 'p'], [(1, 1, 1)]), (['p', 'r', 'o', 'j', 'O', 'c', 'c'], [(2, 2, 1)])]

/-- `ElectronSite::op` (sites/electron.h:113-255). -/
def electronSite : Name → Option (Matrix (Fin 4) (Fin 4) ℚ) := lookup 4
  [(nNup, [(2, 2, 1), (4, 4, 1)]), (nNdn, [(3, 3, 1), (4, 4, 1)]), (nNupdn, [(4, 4, 1)]),
    (nNtot, [(2, 2, 1), (3, 3, 1), (4, 4, 2)]),
    (nCup, [(2, 1, 1), (4, 3, 1)]), (nCdagup, [(1, 2, 1), (3, 4, 1)]),
    (nCdn, [(3, 1, 1), (4, 2, -1)]), (nCdagdn, [(1, 3, 1), (2, 4, -1)]),
    (nAup, [(2, 1, 1), (4, 3, 1)]), (nAdagup, [(1, 2, 1), (3, 4, 1)]),
    (nAdn, [(3, 1, 1), (4, 2, 1)]), (nAdagdn, [(1, 3, 1), (2, 4, 1)]),
    (nFermiPhase, [(1, 1, 1), (2, 2, -1), (3, 3, -1), (4, 4, 1)]), (nF, [(1, 1, 1), (2, 2, -1), (3, 3, -1), (4, 4, 1)]),
    (nFup, [(1, 1, 1), (2, 2, -1), (3, 3, 1), (4, 4, -1)]), (nFdn, [(1, 1, 1), (2, 2, 1), (3, 3, -1), (4, 4, -1)]),
    (nSz, [(2, 2, 1 / 2), (3, 3, -1 / 2)]), (nSp, [(3, 2, 1)]), (nSm, [(2, 3, 1)]), (nS2, [(2, 2, 3 / 4), (3, 3, 3 / 4)])]

/-- `tJSite::op` (sites/tj.h:102-221). -/
def tJSite : Name → Option (Matrix (Fin 3) (Fin 3) ℚ) := lookup 3
  [(nNup, [(2, 2, 1)]), (nNdn, [(3, 3, 1)]), (nNtot, [(2, 2, 1), (3, 3, 1)]),
    (nCup, [(2, 1, 1)]), (nCdagup, [(1, 2, 1)]), (nCdn, [(3, 1, 1)]), (nCdagdn, [(1, 3, 1)]),
    (nAup, [(2, 1, 1)]), (nAdagup, [(1, 2, 1)]), (nAdn, [(3, 1, 1)]), (nAdagdn, [(1, 3, 1)]),
    (nFermiPhase, [(1, 1, 1), (2, 2, -1), (3, 3, -1)]), (nF, [(1, 1, 1), (2, 2, -1), (3, 3, -1)]),
    (nFup, [(1, 1, 1), (2, 2, -1), (3, 3, 1)]), (nFdn, [(1, 1, 1), (2, 2, 1), (3, 3, -1)]),
    (nSz, [(2, 2, 1 / 2), (3, 3, -1 / 2)]), (nSx, [(2, 3, 1), (3, 2, 1)]), (['S', 'p'], [(3, 2, 1)]), (nSp, [(3, 2, 1)]),
    (['S', 'm'], [(2, 3, 1)]), (nSm, [(2, 3, 1)])]

section Op

variable {R : Type*} [Ring R]

/-- `SiteSet::op` (siteset.h:362-419) for the operators `base` of the site. `multSiteOps` (itensor.cc:1288-1294) is the
product of matrices. `fuel` bounds the recursion, which is over shorter names. `Proj` is not modelled. -/
def siteOpF (base : Name → Option R) : Nat → Name → Option R
  | 0, _ => none
  | fuel + 1, op =>
    if op = nId then some 1
    else if op = nF then some ((base op).getD 1)
    else if '*' ∈ op then
      (siteOpF base fuel (op.takeWhile (· ≠ '*'))).bind fun a =>
        (siteOpF base fuel ((op.dropWhile (· ≠ '*')).drop 1)).map fun b => a * b
    else base op

/-- `SiteSet::op`. -/
def siteOp (base : Name → Option R) (op : Name) : Option R := siteOpF base (op.length + 1) op

/-- `fermionicTerm` (autompo.cc:121-139). -/
def fermionicTerm : Name → Name := rewriteName
  [(nCdagup, nAdagup), (nCup, nAup), (nCdagdn, star nAdagdn nFup), (nCdn, star nAdn nFup), (nC, nA), (nCdag, nAdag)]

/-- `rewriteFermionic` (autompo.cc:141-166). -/
def rewriteFermionic (prod : List SiteTerm) (isleftFermionic : Bool) : Res (List SiteTerm) :=
  match prod with
  | [] => .throw
  | t :: _ =>
    if prod.any fun st => st.i ≠ t.i then .throw
    else
      let isSiteFermionic := fermiProd prod
      let p := if isSiteFermionic then
        prod.map fun st => if fermiName st.op then ⟨fermionicTerm st.op, st.i⟩ else st else prod
      .ok (if isleftFermionic && !isSiteFermionic || !isleftFermionic && isSiteFermionic then p ++ [⟨nF, t.i⟩] else p)

/-- One step of the loop of `computeProd` (autompo.cc:175-180). -/
def prodStep (op : Name → Int → Option R) (i : Int) (y : R) (s : SiteTerm) : Res R :=
  if s.i ≠ i then .throw else match op s.op i with
  | none => .throw
  | some z => .ok (y * z)

/-- `computeProd` (autompo.cc:168-182). -/
def computeProd (op : Name → Int → Option R) (p : List SiteTerm) : Res R :=
  match p with
  | [] => .ub
  | t :: ts => match op t.op t.i with
    | none => .throw
    | some x => Res.foldM (prodStep op t.i) x ts

/-- `decomposeTerm` (autompo.cc:918-934): the operators left of site `n`, on it, and right of it. -/
def decomposeTerm (n : Int) (ops : List SiteTerm) : List SiteTerm × List SiteTerm × List SiteTerm :=
  let rest := ops.dropWhile fun t => ¬t.i ≥ n
  (ops.takeWhile (fun t => ¬t.i ≥ n), rest.takeWhile (fun t => ¬t.i > n), rest.dropWhile fun t => ¬t.i > n)

/-- The operators which `partitionHTerms` puts on site `n` for a term (autompo.cc:1039-1088). -/
def onsiteOps (n : Int) (ops : List SiteTerm) : Res (List SiteTerm) :=
  let d := decomposeTerm n ops
  let leftF := fermiProd d.1
  if d.2.1 = [] then .ok [if leftF then ⟨nF, n⟩ else ⟨nId, n⟩] else rewriteFermionic d.2.1 leftF

end Op

end Verif.AutoMPO
