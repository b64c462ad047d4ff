import Verif.MPS.InnerMain
import Verif.Net.Mixed

/-!
# Model of sums of matrix product states

Sources: `/repo/itensor/mps/mpsalgs.cc` (`plussers`, `addAssumeOrth`), `/repo/itensor/mps/mps.cc` (`linkIndex`,
`replaceLinkInds`).

The chain which `addAssumeOrth` builds, before the final call of `orthogonalize` (C63 is about that). No quantum numbers,
and elements are from a commutative ring. The random ids of the new indices are given by a function, as in `MPS/Inner.lean`.
-/

namespace Verif.MPS

open Verif.Tensor Verif.Index Verif.Index.IndexSet Verif.Net

variable {K : Type*} [CommRing K] [DecidableEq K]

/-- `x.replaceLinkInds(prime(linkInds(x),n))` (mpsalgs.cc:113, 134). -/
def primeLinks (n : Int) (x : List (DTensor K)) : Res (List (DTensor K)) :=
  (linkInds x).bind fun l => replaceLinkInds x (l.map (·.prime n))

/-- `linkIndex(x,i)` for `i` from 1 to `N-1` (mps.cc:1228-1234, 1252-1257). -/
def bonds : List (DTensor K) → Res IndexSet
  | T :: U :: Ts => (findIndex (commonInds T.is U.is)).bind fun l => (bonds (U :: Ts)).bind fun r => .ok (l :: r)
  | _ => .ok []

/-- The three results of `plussers`. -/
structure Bond (K : Type*) where
  sum : Index
  first : IT K
  second : IT K

/-- The matrix `S` (mpsalgs.cc:49-53) in column-major storage: zero and then `S(i,dim(l1)+i) = 1` for all `i`. -/
def secondMat (d1 d2 : Nat) : Int → K :=
  (List.range d2).foldl (fun s i => Function.update s ((i + (d1 + i) * d2 : Nat) : Int) 1) fun _ => 0

/-- `Index(m,tags)` (index.cc:66-73). -/
def newIndex (id m : Nat) (t : Verif.TagSet.TagSet) : Index := ⟨id, m, 1, if t.plev < 0 then t.setPrime 0 else t, []⟩

/-- `plussers(l1,l2,sumind,first,second)` (mpsalgs.cc:35-55) called with `sumind` equal to `l1`. -/
def plussers (newid : Key → Nat) (l1 l2 : Index) : Bond K :=
  let m := if l1.dim + l2.dim = 0 then 1 else l1.dim + l2.dim
  let sumind := newIndex (newid l1.key) m l1.tags
  ⟨sumind, .diag ⟨[l1, sumind], [], 1, min l1.dim m⟩, .dense ⟨[l2, sumind], l2.dim * m, secondMat l1.dim l2.dim⟩⟩

/-- The ITensor with the given dense storage. -/
def toIT (T : DTensor K) : IT K := .dense ⟨T.is, (T.is.map (·.dim)).prod, T.store⟩

/-- `dag(f)*A*g` (mpsalgs.cc:126-132); `f` and `g` are real, so that `dag` keeps their elements. -/
def term (fuel : Nat) (junk fresh : Int → K) (f g : Option (IT K)) (A : IT K) : Run (IT K) :=
  Run.bind (match f with
    | none => some (.ok A)
    | some f => f.mulEq fuel junk fresh A) fun N =>
  match g with
  | none => some (.ok N)
  | some g => N.mulEq fuel junk fresh g

/-- One assignment to `L.ref(i)` (mpsalgs.cc:126-132). The result is kept as a dense tensor; diagonal storage cannot occur
when the operands have site indices, and otherwise the model says undefined behaviour. -/
def siteSum (fuel : Nat) (junk fresh : Int → K) (prev next : Option (Bond K)) (A B : DTensor K) : Run (DTensor K) :=
  Run.bind (term fuel junk fresh (prev.map (·.first)) (next.map (·.first)) (toIT A)) fun X =>
  Run.bind (term fuel junk fresh (prev.map (·.second)) (next.map (·.second)) (toIT B)) fun Y =>
  Run.bind (daxpyIT fuel 1 X Y) fun Z => match Z with
    | .dense t => some (.ok ⟨t.is, t.mem⟩)
    | .diag _ => some .ub

/-- The assignments for all sites (mpsalgs.cc:126-132). With one site `first.at(1)` is out of range of a vector of length 1. -/
def sumSites (fuel : Nat) (junk fresh : Int → K) (prev : Option (Bond K)) :
    List (DTensor K) → List (DTensor K) → List (Bond K) → Run (List (DTensor K))
  | [A], [B], [] => match prev with
    | none => some .throw
    | some b => Run.bind (siteSum fuel junk fresh (some b) none A B) fun M => some (.ok [M])
  | A :: A' :: As, B :: Bs, b :: bs =>
    Run.bind (siteSum fuel junk fresh prev (some b) A B) fun M =>
    Run.bind (sumSites fuel junk fresh (some b) (A' :: As) Bs bs) fun Ms => some (.ok (M :: Ms))
  | _, _, _ => some .throw

/-- Lift a computation without loops. -/
def lift {α : Type*} (r : Res α) : Run α := some r

/-- The amount by which links are primed (mpsalgs.cc:111). -/
def randPlev : Int := 1254313

/-- `addAssumeOrth(L,R)` (mpsalgs.cc:99-134). `same` says that `R` is the object `L`; then `R` changes with `L`, and each site is read
before it is written. -/
def addBlocks (fuel : Nat) (junk fresh : Int → K) (newid : Key → Nat) (same : Bool) (L R : List (DTensor K)) :
    Run (List (DTensor K)) :=
  if R.length ≠ L.length then some .throw
  else Run.bind (lift (primeLinks randPlev L)) fun L' =>
    let R' := if same then L' else R
    Run.bind (lift (bonds L')) fun l1 => Run.bind (lift (bonds R')) fun l2 =>
    Run.bind (sumSites fuel junk fresh none L' R' (l1.zipWith (plussers newid) l2)) fun M =>
    lift (primeLinks (-randPlev) M)

end Verif.MPS
