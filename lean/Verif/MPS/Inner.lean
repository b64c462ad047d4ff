import Verif.Net.ITensor

/-!
# Model of inner products of matrix product states

Sources: `/repo/itensor/mps/mps.cc` (`siteInds`, `linkInds`, `replaceSiteInds`, `replaceLinkInds`, `innerC`),
`/repo/itensor/mps/mpo.cc` (`uniqueSiteInds`, `inner`), `/repo/itensor/indexset.cc` (`findIndex`).

An MPS or MPO is the list of its tensors `A_[1], ..., A_[N]`; the tensors `A_[0]` and `A_[N+1]` are default
constructed and have no indices. Storage is dense, without quantum numbers. The new ids which `sim` gives to
indices are random numbers in the code; here they are given by a function of the index.
-/

namespace Verif.MPS

open Verif.Tensor Verif.Index Verif.Index.IndexSet Verif.Net

/-- The default constructed `Index` (index.cc:55-63). -/
def nullIndex : Index := ⟨0, 1, 1, { Verif.TagSet.TagSet.default with plev := 0 }, []⟩

/-- `findIndex(IndexSet)` (indexset.cc:565-571). -/
def findIndex (is : IndexSet) : Res Index :=
  if is.length > 1 then .throw
  else match is with
    | [i] => .ok i
    | _ => .ok nullIndex

section
variable {K : Type*} [CommRing K] [DecidableEq K]

/-- Indices of the first tensor of a list; of the default constructed tensor past the end. -/
def headInds : List (DTensor K) → IndexSet
  | [] => []
  | T :: _ => T.is

/-- `uniqueIndex(A(b),{A(b-1),A(b+1),...})` for all `b`: `siteInds(MPS)` (mps.cc:1222-1227, 1300-1311) when `others` is
empty, `uniqueSiteInds(MPO,MPS)` and `uniqueSiteInds(MPO,MPO)` (mpo.cc:183-209, 222-234) when it is the indices of the
tensors of the second argument. -/
def siteIndsFrom (prev : IndexSet) : List (DTensor K) → List IndexSet → Res IndexSet
  | [], _ => .ok []
  | T :: Ts, O => (findIndex (uniqueIndsL T.is [prev, headInds Ts, O.headD []])).bind fun s =>
      (siteIndsFrom T.is Ts O.tail).bind fun r => .ok (s :: r)

/-- `linkInds(x)` (mps.cc:1272-1285) with `linkIndex` (mps.cc:1228-1234, 1252-1257). -/
def linkInds : List (DTensor K) → Res IndexSet
  | [] => .ok []
  | [_] => .ok []
  | T :: U :: Ts => (findIndex (commonInds T.is U.is)).bind fun l =>
      if !l.nonNull then .throw else (linkInds (U :: Ts)).bind fun r => .ok (l :: r)

/-- `ITensor::replaceInds` (itensor.cc:681-721) on a dense tensor. Each multiplication by `delta(J,Jnew)` in it takes
the branch of diag.cc:142-160 which keeps the storage and puts `Jnew` in place of `J`: `J` is on the tensor and
`Jnew` is not. `Index/Model.lean` has the indices. -/
def replaceIndsD (T : DTensor K) (is1 is2 : IndexSet) : Res (DTensor K) :=
  (replaceInds T.is is1 is2).bind fun is => .ok ⟨is, T.store⟩

/-- The loop of `MPS::replaceSiteInds` (mps.cc:1321-1325) and of `MPO::replaceSiteInds` (mpo.cc:258-259). -/
def replaceSites : List (DTensor K) → IndexSet → IndexSet → Res (List (DTensor K))
  | [], _, _ => .ok []
  | T :: Ts, a :: as, b :: bs => (replaceIndsD T [a] [b]).bind fun U =>
      (replaceSites Ts as bs).bind fun r => .ok (U :: r)
  | _, _, _ => .ub

/-- `MPS::replaceSiteInds` (mps.cc:1313-1327). -/
def replaceSiteInds (x : List (DTensor K)) (sites : IndexSet) : Res (List (DTensor K)) :=
  if sites.length ≠ x.length then .throw
  else (siteIndsFrom [] x []).bind fun sx =>
    if equals sx sites then .ok x else replaceSites x sx sites

/-- The loop of `MPS::replaceLinkInds` (mps.cc:1345-1350); `po`, `pn` are the old and new link to the left. -/
def replaceLinks (po pn : IndexSet) : List (DTensor K) → IndexSet → IndexSet → Res (List (DTensor K))
  | [], _, _ => .ok []
  | [T], [], [] => (replaceIndsD T po pn).bind fun U => .ok [U]
  | T :: Ts, a :: as, b :: bs => (replaceIndsD T (po ++ [a]) (pn ++ [b])).bind fun U =>
      (replaceLinks [a] [b] Ts as bs).bind fun r => .ok (U :: r)
  | _, _, _ => .ub

/-- `MPS::replaceLinkInds` (mps.cc:1336-1352). -/
def replaceLinkInds (x : List (DTensor K)) (links : IndexSet) : Res (List (DTensor K)) :=
  if x.length = 1 then .ok x
  else if links.length ≠ x.length - 1 then .throw
  else (linkInds x).bind fun lx =>
    if equals lx links then .ok x else replaceLinks [] [] x lx links

/-- `dag(ITensor)` without quantum numbers (itensor.cc:250-257): the elements are conjugated. -/
def dagD (conj : K →+* K) (T : DTensor K) : DTensor K := ⟨T.is, fun a => conj (T.store a)⟩

/-- `sim(Index)` (index.cc:553-559, index.h:223-229). -/
def sim (newid : Key → Nat) (i : Index) : Index := { i with id := newid i.key }

/-- `x.replaceLinkInds(sim(linkInds(x)))` (mps.cc:1515, mpo.cc:624). -/
def freshLinks (newid : Key → Nat) (x : List (DTensor K)) : Res (List (DTensor K)) :=
  (linkInds x).bind fun l => replaceLinkInds x (l.map (sim newid))

/-- `eltC` (itensor.cc:83-110). -/
def eltC (T : DTensor K) : Res K := if T.is.length ≠ 0 then .throw else .ok (T.store 0)

/-- `L = L * c1 * c2 * ...` over the tensors of one site. -/
def mulAll (fuel : Nat) (junk fresh : Int → K) (L : DTensor K) : List (DTensor K) → Run (DTensor K)
  | [] => some (.ok L)
  | T :: Ts => Run.bind (L.mulEq fuel junk fresh T) fun L' => mulAll fuel junk fresh L' Ts

/-- The loop over the sites (mps.cc:1519-1520, mpo.cc:632-633). -/
def mulSites (fuel : Nat) (junk fresh : Int → K) (L : DTensor K) : List (List (DTensor K)) → Run (DTensor K)
  | [] => some (.ok L)
  | c :: cs => Run.bind (mulAll fuel junk fresh L c) fun L' => mulSites fuel junk fresh L' cs

/-- `L = c(1)*...; for n in 2..N: L = L*c(n)*...; return eltC(L)`. For `N = 0` the first tensor does not exist
(`A_.at(1)` of a vector of size 2 is a default constructed tensor, and the product reports an error). -/
def sandwich (fuel : Nat) (junk fresh : Int → K) : List (List (DTensor K)) → Run K
  | (T :: c) :: cs => Run.bind (mulAll fuel junk fresh T c) fun L => Run.bind (mulSites fuel junk fresh L cs) fun L' =>
      some (eltC L')
  | _ => some .throw

/-- `psidag` in `innerC` (mps.cc:1513-1515). -/
def bra (conj : K →+* K) (newid : Key → Nat) (psi phi : List (DTensor K)) : Res (List (DTensor K)) :=
  (siteIndsFrom [] phi []).bind fun s => (replaceSiteInds (psi.map (dagD conj)) s).bind fun p => freshLinks newid p

/-- `innerC(MPS,MPS)` (mps.cc:1505-1523). -/
def innerC (fuel : Nat) (junk fresh : Int → K) (conj : K →+* K) (newid : Key → Nat) (psi phi : List (DTensor K)) :
    Run K :=
  if psi.length ≠ phi.length then some .throw
  else match bra conj newid psi phi with
    | .ok p => sandwich fuel junk fresh ((phi.zip p).map fun q => [q.1, q.2])
    | .throw => some .throw
    | .ub => some .ub

/-- `xdag` in `inner(MPS,MPO,MPS)` (mpo.cc:618-624). -/
def braOp (conj : K →+* K) (newid : Key → Nat) (x A y : List (DTensor K)) : Res (List (DTensor K)) :=
  (siteIndsFrom [] A (y.map (·.is))).bind fun s => (replaceSiteInds x s).bind fun p =>
    freshLinks newid (p.map (dagD conj))

/-- `inner(MPS,MPO,MPS)` (mpo.cc:607-642). -/
def innerOp (fuel : Nat) (junk fresh : Int → K) (conj : K →+* K) (newid : Key → Nat) (x A y : List (DTensor K)) :
    Run K :=
  if y.length ≠ A.length ∨ x.length ≠ A.length then some .throw
  else match braOp conj newid x A y with
    | .ok p => sandwich fuel junk fresh ((y.zip (A.zip p)).map fun q => [q.1, q.2.1, q.2.2])
    | .throw => some .throw
    | .ub => some .ub

end

end Verif.MPS
